import Verif.Weak.Data
import Verif.Proof.EqLists

/-!
# Accesses to values: elements, loops, swap, growth

Helper file (no property statements).
-/

set_option linter.unusedSimpArgs false

namespace Verif.Weak

variable {α β ρ : Type} {c : Cid} {A : List (Ev α) → Ev α → Prop} {Q : DS α → ρ → Prop} {QP : DS α → PanicKind → Prop}
  {S : DS α} {d : List (Ev α)} {V : Kn}

/-! ## handles -/

/-- A handle has been taken. -/
def DS.take (S : DS α) (i : Nat) : DS α := ⟨S.d, upd S.held i (some none), ⟨fun j => S.V.v j ∨ j = i, S.V.a, S.V.wn⟩⟩

theorem d_lock {i : Nat} {k : Bool → Prog α ρ} (h1 : S.held i = none → Does c A Q QP (k true) (S.take i))
    (h2 : ¬ S.V.v i → Does c A Q QP (k false) S) : Does c A Q QP ((COpt.lock i).bind k) S := by
  simp only [COpt.lock, Prog.bind_eq, Prog.bind_assoc, Prog.pure_eq, Prog.ret_bind]
  refine d_spin trivial fun b g hb hs => ⟨by simp [devs], ?_⟩
  change Option CState at b
  rcases b with _ | s
  · have : dnext c S g (.stCas i .SOME .RESERVED .acquire .relaxed) (none : Option CState) = S.take i := by
      simp [dnext, devs, dheld, dV, DS.take]
    rw [this]
    exact h1 hb
  · have : dnext c S g (.stCas i .SOME .RESERVED .acquire .relaxed) (some s : Option CState) = S := by
      simp [dnext, devs, dheld, dV]
    rw [this]
    refine h2 fun hV => ?_
    cases s
    · exact hb.2 hV rfl
    · simp at hs
    · exact hb.1 rfl

theorem d_tryLock {i : Nat} {k : Bool → Prog α ρ} (h1 : S.held i = none → Does c A Q QP (k true) (S.take i))
    (h2 : Does c A Q QP (k false) S) : Does c A Q QP ((COpt.tryLock i).bind k) S := by
  simp only [COpt.tryLock, Prog.bind_eq, Prog.bind_assoc, Prog.pure_eq, Prog.ret_bind]
  refine d_act trivial fun b g hb => ⟨by simp [devs], ?_⟩
  change Option CState at b
  rcases b with _ | s
  · have : dnext c S g (.stCas i .SOME .RESERVED .acquire .relaxed) (none : Option CState) = S.take i := by
      simp [dnext, devs, dheld, dV, DS.take]
    rw [this]
    exact h1 hb
  · have : dnext c S g (.stCas i .SOME .RESERVED .acquire .relaxed) (some s : Option CState) = S := by
      simp [dnext, devs, dheld, dV]
    rw [this]
    exact h2

theorem d_unlock {i : Nat} {k : Unit → Prog α ρ} (hk : Does c A Q QP (k ()) ⟨S.d, upd S.held i none, S.V⟩) :
    Does c A Q QP ((COpt.unlock i).bind k) S := by
  simp only [COpt.unlock]
  refine d_act trivial fun b g _ => ⟨by simp [devs], ?_⟩
  have : dnext c S g (.stStore i .SOME .release) b = ⟨S.d, upd S.held i none, S.V⟩ := by
    simp [dnext, devs, dheld, dV]
  rw [this]
  exact hk

/-- The handle of `i` is held, with value `o` if known. -/
abbrev grip (d : List (Ev α)) (V : Kn) (i : Nat) (o : Option α) : DS α := ⟨d, upd (fun _ => none) i (some o), V⟩

theorem upd_upd {γ : Type} (f : Nat → γ) (i : Nat) (x y : γ) : upd (upd f i x) i y = upd f i y := by
  funext j; simp only [upd_apply]; split <;> rfl

theorem upd_none (i : Nat) : upd (fun _ : Nat => (none : Option (Option α))) i none = fun _ => none := by
  funext j; simp only [upd_apply]; split <;> rfl

theorem d_gripRead {i : Nat} {o : Option α} {k : α → Prog α ρ} (hA : ∀ v, A d (.read c i v))
    (hk : ∀ v, Does c A Q QP (k v) (grip (d ++ [.read c i v]) V i (some v))) :
    Does c A Q QP ((act (.valRead i)).bind k) (grip d V i o) := by
  refine d_act trivial fun b g _ => ⟨by simpa [devs] using hA b, ?_⟩
  have : dnext c (grip d V i o) g (.valRead i) b = grip (d ++ [.read c i b]) V i (some b) := by
    simp [dnext, devs, dheld, dV, upd_upd]
  rw [this]
  exact hk b

theorem d_gripWrite {i : Nat} {o : Option α} {v : α} {k : Unit → Prog α ρ}
    (hA : ∀ old, (∀ u, o = some u → old = u) → A d (.write c i old v))
    (hk : ∀ old, (∀ u, o = some u → old = u) → Does c A Q QP (k ()) (grip (d ++ [.write c i old v]) V i (some v))) :
    Does c A Q QP ((act (.valWrite i v)).bind k) (grip d V i o) := by
  refine d_act (fun h => by simp at h) fun b g _ => ?_
  have h0 : ∀ u, o = some u → o.getD (g.getD v) = u := by rintro u rfl; rfl
  have : dnext c (grip d V i o) g (.valWrite i v) b = grip (d ++ [.write c i (o.getD (g.getD v)) v]) V i (some v) := by
    simp [dnext, devs, dheld, dV, upd_upd]
  rw [this]
  exact ⟨by simpa [devs] using hA _ h0, hk _ h0⟩

theorem d_gripUnlock {i : Nat} {o : Option α} {k : Unit → Prog α ρ} (hk : Does c A Q QP (k ()) (free d V)) :
    Does c A Q QP ((COpt.unlock i).bind k) (grip d V i o) := by
  refine d_unlock ?_
  rw [upd_upd, upd_none]
  exact hk

theorem take_free (i : Nat) : (free d V).take i = grip d ⟨fun j => V.v j ∨ j = i, V.a, V.wn⟩ i none := rfl

/-! ## element functions -/

theorem d_clone {i : Nat} {k : Option α → Prog α ρ} (hA : ∀ v, A d (.read c i v))
    (hk : ∀ V' v, V.Le V' → Does c A Q QP (k (some v)) (free (d ++ [.read c i v]) V'))
    (hn : ¬ V.v i → Does c A Q QP (k none) (free d V)) :
    Does c A Q QP ((COpt.cloneIntoOption i).bind k) (free d V) := by
  simp only [COpt.cloneIntoOption, Prog.bind_eq, Prog.bind_assoc]
  refine d_lock (fun _ => ?_) (fun h => ?_)
  · rw [take_free]
    simp only [if_true, Prog.bind_eq, Prog.bind_assoc, Prog.pure_eq, Prog.ret_bind]
    exact d_gripRead hA fun v => d_gripUnlock (hk _ v ⟨fun _ x => .inl x, fun _ x => x, Nat.le_refl _⟩)
  · simp only [Bool.false_eq_true, if_false, Prog.pure_eq, Prog.ret_bind]
    exact hn h

theorem d_elCloned {i : Nat} {k : α → Prog α ρ} (hV : V.v i) (hA : ∀ v, A d (.read c i v))
    (hk : ∀ V' v, V.Le V' → Does c A Q QP (k v) (free (d ++ [.read c i v]) V')) :
    Does c A Q QP ((Elem.cloned i).bind k) (free d V) := by
  simp only [Elem.cloned, Prog.bind_eq, Prog.bind_assoc]
  exact d_clone hA (fun V' v h => by simpa only [Prog.pure_eq, Prog.ret_bind] using hk V' v h) (fun h => absurd hV h)

theorem d_elMap {γ : Type} {f : α → Option γ} {i : Nat} {k : γ → Prog α ρ} (hV : V.v i) (hA : ∀ v, A d (.read c i v))
    (hk : ∀ V' v b, V.Le V' → f v = some b → Does c A Q QP (k b) (free (d ++ [.read c i v]) V'))
    (hp : ∀ V' v, f v = none → QP (free (d ++ [.read c i v]) V') .userCode) :
    Does c A Q QP ((Elem.map f i).bind k) (free d V) := by
  simp only [Elem.map, COpt.map, Prog.bind_eq, Prog.bind_assoc]
  refine d_lock (fun _ => ?_) (fun h => absurd hV h)
  rw [take_free]
  simp only [if_true, Prog.bind_eq, Prog.bind_assoc, Prog.pure_eq, Prog.ret_bind]
  refine d_gripRead hA fun v => d_gripUnlock ?_
  rcases hf : f v with _ | b
  · simp only [Prog.panic_bind]
    exact hp _ v hf
  · simp only [Prog.pure_eq, Prog.ret_bind]
    exact hk _ v b ⟨fun _ x => .inl x, fun _ x => x, Nat.le_refl _⟩ hf

theorem d_isSomeAnd {f : α → Option Bool} {i : Nat} {k : Bool → Prog α ρ} (hV : V.v i) (hA : ∀ v, A d (.read c i v))
    (hk : ∀ V' v b, V.Le V' → f v = some b → Does c A Q QP (k b) (free (d ++ [.read c i v]) V'))
    (hp : ∀ V' v, f v = none → QP (free (d ++ [.read c i v]) V') .userCode) :
    Does c A Q QP ((COpt.isSomeAnd f i).bind k) (free d V) := by
  simp only [COpt.isSomeAnd, Prog.bind_eq, Prog.bind_assoc]
  refine d_lock (fun _ => ?_) (fun h => absurd hV h)
  rw [take_free]
  simp only [if_true, Prog.bind_eq, Prog.bind_assoc, Prog.pure_eq, Prog.ret_bind]
  refine d_gripRead hA fun v => d_gripUnlock ?_
  rcases hf : f v with _ | b
  · simp only [Prog.panic_bind]
    exact hp _ v hf
  · simp only [Prog.pure_eq, Prog.ret_bind]
    exact hk _ v b ⟨fun _ x => .inl x, fun _ x => x, Nat.le_refl _⟩ hf

theorem d_elReplace {i : Nat} {v : α} {k : α → Prog α ρ} (hV : V.v i) (hA : ∀ old, A d (.read c i old))
    (hA' : ∀ old, A (d ++ [.read c i old]) (.write c i old v))
    (hk : ∀ V' old, V.Le V' → Does c A Q QP (k old) (free (d ++ [.read c i old, .write c i old v]) V')) :
    Does c A Q QP ((Elem.replace i v).bind k) (free d V) := by
  simp only [Elem.replace, COpt.replace, Prog.bind_eq, Prog.bind_assoc]
  refine d_lock (fun _ => ?_) (fun h => absurd hV h)
  rw [take_free]
  simp only [if_true, Prog.bind_eq, Prog.bind_assoc, Prog.pure_eq, Prog.ret_bind]
  refine d_gripRead hA fun old => d_gripWrite (fun o ho => ?_) (fun o ho => d_gripUnlock ?_)
  · rw [ho old rfl]; exact hA' old
  · rw [ho old rfl, List.append_assoc]
    exact hk _ old ⟨fun _ x => .inl x, fun _ x => x, Nat.le_refl _⟩

theorem d_elSet {i : Nat} {v : α} {k : Unit → Prog α ρ} (hV : V.v i) (hA : ∀ old, A d (.write c i old v))
    (hk : ∀ V' old, V.Le V' → Does c A Q QP (k ()) (free (d ++ [.write c i old v]) V')) :
    Does c A Q QP ((Elem.set i v).bind k) (free d V) := by
  simp only [Elem.set, COpt.setSome, Prog.bind_eq, Prog.bind_assoc]
  refine d_lock (fun _ => ?_) (fun h => absurd hV h)
  rw [take_free]
  simp only [if_true, Prog.bind_eq, Prog.bind_assoc, Prog.pure_eq, Prog.ret_bind]
  exact d_gripWrite (fun o _ => hA o) (fun o _ => d_gripUnlock (hk _ o ⟨fun _ x => .inl x, fun _ x => x, Nat.le_refl _⟩))

theorem d_elUpdate {f : α → α × Bool} {i : Nat} {k : Unit → Prog α ρ} (hV : V.v i) (hA : ∀ old, A d (.read c i old))
    (hA' : ∀ old, A (d ++ [.read c i old]) (.write c i old (f old).1))
    (hk : ∀ V' old, V.Le V' → (f old).2 = true →
      Does c A Q QP (k ()) (free (d ++ [.read c i old, .write c i old (f old).1]) V'))
    (hp : ∀ V' old, (f old).2 = false → QP (free (d ++ [.read c i old, .write c i old (f old).1]) V') .userCode) :
    Does c A Q QP ((Elem.update f i).bind k) (free d V) := by
  simp only [Elem.update, COpt.updateIfSome, Prog.bind_eq, Prog.bind_assoc]
  refine d_lock (fun _ => ?_) (fun h => absurd hV h)
  rw [take_free]
  simp only [if_true, Prog.bind_eq, Prog.bind_assoc, Prog.pure_eq, Prog.ret_bind]
  refine d_gripRead hA fun old => d_gripWrite (fun o ho => ?_) (fun o ho => d_gripUnlock ?_)
  · rw [ho old rfl]; exact hA' old
  · rw [ho old rfl, List.append_assoc]
    rcases hf : (f old).2 with _ | _
    · simp only [Bool.false_eq_true, if_false, Prog.panic_bind]
      exact hp _ old hf
    · simp only [if_true, Prog.pure_eq, Prog.ret_bind]
      exact hk _ old ⟨fun _ x => .inl x, fun _ x => x, Nat.le_refl _⟩ hf

/-! ## loops -/

theorem d_loopCloned : ∀ (n a : Nat) {V : Kn} {d : List (Ev α)} {f : List α → Prog α ρ},
    (∀ i, a ≤ i → i < a + n → V.v i) → (∀ d i v, a ≤ i → i < a + n → A d (.read c i v)) →
    (∀ V' vs, vs.length = n → Does c A Q QP (f vs) (free (d ++ reads c a vs) V')) →
    Does c A Q QP ((Loop.cloned (positions a n)).bind f) (free d V) := by
  intro n
  induction n with
  | zero =>
    intro a V d f hp hA h
    simp only [positions, List.range'_zero, Loop.cloned, Prog.pure_eq, Prog.ret_bind]
    simpa [reads] using h V [] rfl
  | succ n ih =>
    intro a V d f hp hA h
    simp only [positions, List.range'_succ, Loop.cloned, Prog.bind_eq, Prog.bind_assoc, Prog.pure_eq]
    refine d_elCloned (hp a (by omega) (by omega)) (fun v => hA _ a v (by omega) (by omega)) fun V1 v h1 => ?_
    refine ih (a + 1) (fun i h2 h3 => h1.v i (hp i (by omega) (by omega)))
      (fun d i v h2 h3 => hA d i v (by omega) (by omega)) fun V2 vs hlen => ?_
    simp only [Prog.ret_bind]
    simpa [reads] using h V2 (v :: vs) (by simp [hlen])

theorem d_loopMap {γ : Type} {φ : α → Option γ} :
    ∀ (n a : Nat) {V : Kn} {d : List (Ev α)} {f : List γ → Prog α ρ},
    (∀ i, a ≤ i → i < a + n → V.v i) → (∀ d i v, a ≤ i → i < a + n → A d (.read c i v)) →
    (∀ V' vs bs, vs.length = n → vs.map φ = bs.map some → Does c A Q QP (f bs) (free (d ++ reads c a vs) V')) →
    (∀ V' vs x, vs.length < n → φ x = none → (∀ y ∈ vs, φ y ≠ none) → QP (free (d ++ reads c a (vs ++ [x])) V') .userCode) →
    Does c A Q QP ((Loop.map φ (positions a n)).bind f) (free d V) := by
  intro n
  induction n with
  | zero =>
    intro a V d f hp hA h hu
    simp only [positions, List.range'_zero, Loop.map, Prog.pure_eq, Prog.ret_bind]
    simpa [reads] using h V [] [] rfl rfl
  | succ n ih =>
    intro a V d f hp hA h hu
    simp only [positions, List.range'_succ, Loop.map, Prog.bind_eq, Prog.bind_assoc, Prog.pure_eq]
    refine d_elMap (hp a (by omega) (by omega)) (fun v => hA _ a v (by omega) (by omega)) (fun V1 v b h1 hb => ?_)
      (fun V1 v hb => ?_)
    · refine ih (a + 1) (fun i h2 h3 => h1.v i (hp i (by omega) (by omega)))
        (fun d i v h2 h3 => hA d i v (by omega) (by omega)) (fun V2 vs bs hlen hbs => ?_) (fun V2 vs x hlen hx hall => ?_)
      · simp only [Prog.ret_bind]
        simpa [reads] using h V2 (v :: vs) (b :: bs) (by simp [hlen]) (by simp [hb, hbs])
      · have := hu V2 (v :: vs) x (by simp; omega) hx (by
          intro y hy
          rcases List.mem_cons.1 hy with rfl | hy
          · simp [hb]
          · exact hall y hy)
        simpa [reads] using this
    · simpa [reads] using hu V1 [] v (by simp) hb (by simp)

theorem d_loopFilter {φ : α → Option Bool} :
    ∀ (n a : Nat) {V : Kn} {d : List (Ev α)} {f : List Nat → Prog α ρ},
    (∀ i, a ≤ i → i < a + n → V.v i) → (∀ d i v, a ≤ i → i < a + n → A d (.read c i v)) →
    (∀ V' vs, vs.length = n → (∀ x ∈ vs, φ x ≠ none) → Does c A Q QP (f (selected φ a vs)) (free (d ++ reads c a vs) V')) →
    (∀ V' vs x, vs.length < n → φ x = none → (∀ y ∈ vs, φ y ≠ none) → QP (free (d ++ reads c a (vs ++ [x])) V') .userCode) →
    Does c A Q QP ((Loop.filter φ (positions a n)).bind f) (free d V) := by
  intro n
  induction n with
  | zero =>
    intro a V d f hp hA h hu
    simp only [positions, List.range'_zero, Loop.filter, Prog.pure_eq, Prog.ret_bind]
    simpa [reads, selected] using h V [] rfl (by simp)
  | succ n ih =>
    intro a V d f hp hA h hu
    simp only [positions, List.range'_succ, Loop.filter, Prog.bind_eq, Prog.bind_assoc, Prog.pure_eq]
    refine d_elMap (hp a (by omega) (by omega)) (fun v => hA _ a v (by omega) (by omega)) (fun V1 v b h1 hb => ?_)
      (fun V1 v hb => ?_)
    · refine ih (a + 1) (fun i h2 h3 => h1.v i (hp i (by omega) (by omega)))
        (fun d i v h2 h3 => hA d i v (by omega) (by omega)) (fun V2 vs hlen hall => ?_) (fun V2 vs x hlen hx hall => ?_)
      · simp only [Prog.ret_bind]
        have := h V2 (v :: vs) (by simp [hlen]) (by simpa [hb] using hall)
        simpa [reads, selected, hb] using this
      · have := hu V2 (v :: vs) x (by simp; omega) hx (by
          intro y hy
          rcases List.mem_cons.1 hy with rfl | hy
          · simp [hb]
          · exact hall y hy)
        simpa [reads] using this
    · simpa [reads] using hu V1 [] v (by simp) hb (by simp)

theorem d_loopFold {γ : Type} {φ : γ → α → Option γ} :
    ∀ (n a : Nat) (init : γ) {V : Kn} {d : List (Ev α)} {f : γ → Prog α ρ},
    (∀ i, a ≤ i → i < a + n → V.v i) → (∀ d i v, a ≤ i → i < a + n → A d (.read c i v)) →
    (∀ V' vs b, vs.length = n → vs.foldlM φ init = some b → Does c A Q QP (f b) (free (d ++ reads c a vs) V')) →
    (∀ V' vs x agg, vs.length < n → vs.foldlM φ init = some agg → φ agg x = none →
      QP (free (d ++ reads c a (vs ++ [x])) V') .userCode) →
    Does c A Q QP ((Loop.fold φ init (positions a n)).bind f) (free d V) := by
  intro n
  induction n with
  | zero =>
    intro a init V d f hp hA h hu
    simp only [positions, List.range'_zero, Loop.fold, Prog.pure_eq, Prog.ret_bind]
    simpa [reads] using h V [] init rfl rfl
  | succ n ih =>
    intro a init V d f hp hA h hu
    simp only [positions, List.range'_succ, Loop.fold, Prog.bind_eq, Prog.bind_assoc, Prog.pure_eq]
    refine d_elMap (hp a (by omega) (by omega)) (fun v => hA _ a v (by omega) (by omega)) (fun V1 v b h1 hb => ?_)
      (fun V1 v hb => ?_)
    · refine ih (a + 1) b (fun i h2 h3 => h1.v i (hp i (by omega) (by omega)))
        (fun d i v h2 h3 => hA d i v (by omega) (by omega)) (fun V2 vs b' hlen hbs => ?_)
        (fun V2 vs x agg hlen hagg hx => ?_)
      · have := h V2 (v :: vs) b' (by simp [hlen]) (by simp [hb, hbs])
        simpa [reads] using this
      · have := hu V2 (v :: vs) x agg (by simp; omega) (by simp [hb, hagg]) hx
        simpa [reads] using this
    · simpa [reads] using hu V1 [] v init (by simp) rfl hb

theorem d_loopVisit {γ : Type} {φ : γ → α → Option (γ × Bool)} :
    ∀ (n a : Nat) (init : γ) {V : Kn} {d : List (Ev α)} {f : γ → Prog α ρ},
    (∀ i, a ≤ i → i < a + n → V.v i) → (∀ d i v, a ≤ i → i < a + n → A d (.read c i v)) →
    (∀ V' vs b go, called φ init vs = some (b, go) → vs.length ≤ n → (go = true → vs.length = n) →
      Does c A Q QP (f b) (free (d ++ reads c a vs) V')) →
    (∀ V' vs x agg, vs.length < n → called φ init vs = some (agg, true) → φ agg x = none →
      QP (free (d ++ reads c a (vs ++ [x])) V') .userCode) →
    Does c A Q QP ((Loop.visit φ init (positions a n)).bind f) (free d V) := by
  intro n
  induction n with
  | zero =>
    intro a init V d f hp hA h hu
    simp only [positions, List.range'_zero, Loop.visit, Prog.pure_eq, Prog.ret_bind]
    simpa [reads] using h V [] init true rfl (Nat.le_refl _) fun _ => rfl
  | succ n ih =>
    intro a init V d f hp hA h hu
    simp only [positions, List.range'_succ, Loop.visit, Prog.bind_eq, Prog.bind_assoc, Prog.pure_eq]
    refine d_elMap (hp a (by omega) (by omega)) (fun v => hA _ a v (by omega) (by omega)) (fun V1 v r h1 hb => ?_)
      (fun V1 v hb => ?_)
    · obtain ⟨b, go⟩ := r
      cases go with
      | false =>
        have := h V1 [v] b false (by simp [called, hb]) (by simp) (by simp)
        simpa [reads] using this
      | true =>
        refine ih (a + 1) b (fun i h2 h3 => h1.v i (hp i (by omega) (by omega)))
          (fun d i v h2 h3 => hA d i v (by omega) (by omega)) (fun V2 vs b' go hc hlen hgo => ?_)
          (fun V2 vs x agg hlen hagg hx => ?_)
        · have := h V2 (v :: vs) b' go (by simp [called, hb, hc]) (by simp; omega) (fun hg => by simp [hgo hg])
          simpa [reads] using this
        · have := hu V2 (v :: vs) x agg (by simp; omega) (by simp [called, hb, hagg]) hx
          simpa [reads] using this
    · simpa [reads] using hu V1 [] v init (by simp) rfl hb

theorem d_loopReduce {φ : α → α → Option α} (n a : Nat) {f : Option α → Prog α ρ}
    (hp : ∀ i, a ≤ i → i < a + n → V.v i) (hA : ∀ d i v, a ≤ i → i < a + n → A d (.read c i v))
    (hn : ∀ V', n = 0 → Does c A Q QP (f none) (free d V'))
    (h : ∀ V' v vs b, vs.length + 1 = n → vs.foldlM φ v = some b →
      Does c A Q QP (f (some b)) (free (d ++ reads c a (v :: vs)) V'))
    (hu : ∀ V' v vs x agg, vs.length + 1 < n → vs.foldlM φ v = some agg → φ agg x = none →
      QP (free (d ++ reads c a (v :: (vs ++ [x]))) V') .userCode) :
    Does c A Q QP ((Loop.reduce φ (positions a n)).bind f) (free d V) := by
  cases n with
  | zero =>
    simp only [positions, List.range'_zero, Loop.reduce, Prog.pure_eq, Prog.ret_bind]
    exact hn _ rfl
  | succ n =>
    simp only [positions, List.range'_succ, Loop.reduce, Prog.bind_eq, Prog.bind_assoc, Prog.pure_eq]
    refine d_elCloned (hp a (by omega) (by omega)) (fun v => hA _ a v (by omega) (by omega)) fun V1 v h1 => ?_
    refine d_loopFold n (a + 1) v (fun i h2 h3 => h1.v i (hp i (by omega) (by omega)))
      (fun d i v h2 h3 => hA d i v (by omega) (by omega)) (fun V2 vs b hlen hb => ?_)
      (fun V2 vs x agg hlen hagg hx => ?_)
    · simp only [Prog.ret_bind]
      simpa [reads] using h V2 v vs b (by omega) hb
    · simpa [reads] using hu V2 v vs x agg (by omega) hagg hx

theorem d_loopPosition {veq : α → α → Bool} {t : α} :
    ∀ (n a k : Nat) {V : Kn} {d : List (Ev α)} {f : Option Nat → Prog α ρ},
    (∀ i, a ≤ i → i < a + n → V.v i) → (∀ d i v, a ≤ i → i < a + n → A d (.read c i v)) →
    (∀ V' vs, vs.length = n → (∀ x ∈ vs, veq x t = false) → Does c A Q QP (f none) (free (d ++ reads c a vs) V')) →
    (∀ V' vs x, vs.length < n → (∀ y ∈ vs, veq y t = false) → veq x t = true →
      Does c A Q QP (f (some (k + vs.length))) (free (d ++ reads c a (vs ++ [x])) V')) →
    Does c A Q QP ((Loop.position veq t k (positions a n)).bind f) (free d V) := by
  intro n
  induction n with
  | zero =>
    intro a k V d f hp hA hn h
    simp only [positions, List.range'_zero, Loop.position, Prog.pure_eq, Prog.ret_bind]
    simpa [reads] using hn V [] rfl (by simp)
  | succ n ih =>
    intro a k V d f hp hA hn h
    simp only [positions, List.range'_succ, Loop.position, Prog.bind_eq, Prog.bind_assoc, Prog.pure_eq,
      Elem.eqVal]
    refine d_elMap (hp a (by omega) (by omega)) (fun v => hA _ a v (by omega) (by omega)) (fun V1 v b h1 hb => ?_)
      (fun V1 v hb => by simp at hb)
    simp only [Option.some.injEq] at hb
    cases b with
    | true =>
      simp only [if_true, Prog.ret_bind]
      simpa [reads] using h V1 [] v (by simp) (by simp) hb
    | false =>
      simp only [Bool.false_eq_true, if_false]
      refine ih (a + 1) (k + 1) (fun i h2 h3 => h1.v i (hp i (by omega) (by omega)))
        (fun d i v h2 h3 => hA d i v (by omega) (by omega)) (fun V2 vs hlen hall => ?_)
        (fun V2 vs x hlen hall hx => ?_)
      · simpa [reads] using hn V2 (v :: vs) (by simp [hlen]) (by simpa [hb] using hall)
      · have := h V2 (v :: vs) x (by simp; omega) (by simpa [hb] using hall) hx
        simpa [reads, Nat.add_assoc, Nat.add_comm 1] using this

theorem d_loopFill {v : α} :
    ∀ (n a : Nat) {V : Kn} {d : List (Ev α)} {f : Unit → Prog α ρ},
    (∀ i, a ≤ i → i < a + n → V.v i) → (∀ d i old, a ≤ i → i < a + n → A d (.write c i old v)) →
    (∀ V' (olds : List α), olds.length = n →
      Does c A Q QP (f ()) (free (d ++ writes c a (olds.map (fun o => (o, v)))) V')) →
    Does c A Q QP ((Loop.fill v (positions a n)).bind f) (free d V) := by
  intro n
  induction n with
  | zero =>
    intro a V d f hp hA h
    simp only [positions, List.range'_zero, Loop.fill, Prog.pure_eq, Prog.ret_bind]
    simpa [writes] using h V [] rfl
  | succ n ih =>
    intro a V d f hp hA h
    simp only [positions, List.range'_succ, Loop.fill, Prog.bind_eq, Prog.bind_assoc, Prog.pure_eq]
    refine d_elSet (hp a (by omega) (by omega)) (fun v => hA _ a v (by omega) (by omega)) fun V1 old h1 => ?_
    refine ih (a + 1) (fun i h2 h3 => h1.v i (hp i (by omega) (by omega)))
      (fun d i v h2 h3 => hA d i v (by omega) (by omega)) fun V2 olds hlen => ?_
    simpa [writes] using h V2 (old :: olds) (by simp [hlen])

theorem d_loopFillWith {φ : Nat → Option α} :
    ∀ (n a k : Nat) {V : Kn} {d : List (Ev α)} {f : Unit → Prog α ρ},
    (∀ i, a ≤ i → i < a + n → V.v i) →
    (∀ d i old v, a ≤ i → i < a + n → φ (k + (i - a)) = some v → A d (.write c i old v)) →
    (∀ V' ps, ps.length = n → (∀ j (hj : j < ps.length), φ (k + j) = some (ps[j]).2) →
      Does c A Q QP (f ()) (free (d ++ writes c a ps) V')) →
    (∀ V' ps, ps.length < n → (∀ j (hj : j < ps.length), φ (k + j) = some (ps[j]).2) → φ (k + ps.length) = none →
      QP (free (d ++ writes c a ps) V') .userCode) →
    Does c A Q QP ((Loop.fillWith φ k (positions a n)).bind f) (free d V) := by
  intro n
  induction n with
  | zero =>
    intro a k V d f hp hA h hu
    simp only [positions, List.range'_zero, Loop.fillWith, Prog.pure_eq, Prog.ret_bind]
    simpa [writes] using h V [] rfl (by simp)
  | succ n ih =>
    intro a k V d f hp hA h hu
    simp only [positions, List.range'_succ, Loop.fillWith, Prog.bind_eq, Prog.bind_assoc, Prog.pure_eq]
    rcases hφ : φ k with _ | v
    · simp only [Prog.panic_bind]
      simpa [writes, Does] using hu V [] (by simp) (by simp) hφ
    · simp only [Prog.bind_assoc]
      refine d_elSet (hp a (by omega) (by omega))
        (fun old => hA _ a old v (by omega) (by omega) (by simpa using hφ)) fun V1 old h1 => ?_
      have key : ∀ ps : List (α × α), (∀ j (hj : j < ps.length), φ (k + 1 + j) = some (ps[j]).2) →
          ∀ j (hj : j < ((old, v) :: ps).length), φ (k + j) = some (((old, v) :: ps)[j]).2 := by
        intro ps hps j hj
        cases j with
        | zero => simpa using hφ
        | succ j =>
          have := hps j (by simpa using hj)
          rw [show k + (j + 1) = k + 1 + j by omega]
          simpa using this
      refine ih (a + 1) (k + 1) (fun i h2 h3 => h1.v i (hp i (by omega) (by omega)))
        (fun d i old v h2 h3 h4 => hA d i old v (by omega) (by omega) ?_) (fun V2 ps hlen hps => ?_)
        (fun V2 ps hlen hps hn => ?_)
      · rw [show k + (i - a) = k + 1 + (i - (a + 1)) by omega]; exact h4
      · simpa [writes] using h V2 ((old, v) :: ps) (by simp [hlen]) (key ps hps)
      · have := hu V2 ((old, v) :: ps) (by simp; omega) (key ps hps) (by
          simp only [List.length_cons]
          rw [show k + (ps.length + 1) = k + 1 + ps.length by omega]; exact hn)
        simpa [writes] using this

theorem d_loopEqList {veq : α → α → Option Bool} :
    ∀ (n a : Nat) (ts : List α) {V : Kn} {d : List (Ev α)} {f : Bool → Prog α ρ},
    (∀ i, a ≤ i → i < a + n → V.v i) → (∀ d i v, a ≤ i → i < a + n → A d (.read c i v)) →
    (∀ V' d' b, OutEq c a n veq ts d' b → Does c A Q QP (f b) (free (d ++ d') V')) →
    (∀ V' d', FailEq c a n veq ts d' → QP (free (d ++ d') V') .userCode) →
    Does c A Q QP ((Loop.eqList veq (positions a n) ts).bind f) (free d V) := by
  intro n
  induction n with
  | zero =>
    intro a ts V d f hp hA h hu
    cases ts with
    | nil =>
      simp only [positions, List.range'_zero, Loop.eqList, Prog.pure_eq, Prog.ret_bind]
      simpa using h V [] true (OutEq.zero _ _ _)
    | cons t ts =>
      simp only [positions, List.range'_zero, Loop.eqList, Prog.pure_eq, Prog.ret_bind]
      simpa using h V [] false (OutEq.zero _ _ _)
  | succ n ih =>
    intro a ts V d f hp hA h hu
    cases ts with
    | nil =>
      simp only [positions, List.range'_succ, Loop.eqList, Prog.pure_eq, Prog.ret_bind]
      simpa using h V [] false (OutEq.nil _ _ _)
    | cons t ts =>
      simp only [positions, List.range'_succ, Loop.eqList, Prog.bind_eq, Prog.bind_assoc, Prog.pure_eq]
      refine d_isSomeAnd (hp a (by omega) (by omega)) (fun v => hA _ a v (by omega) (by omega)) (fun V1 v b h1 hb => ?_)
        (fun V1 v hb => ?_)
      · cases b with
        | false =>
          simp only [Bool.false_eq_true, if_false, Prog.ret_bind]
          exact h V1 _ false (OutEq.differ hb)
        | true =>
          simp only [if_true]
          refine ih (a + 1) ts (fun i h2 h3 => h1.v i (hp i (by omega) (by omega)))
            (fun d i v h2 h3 => hA d i v (by omega) (by omega)) (fun V2 d' b ho => ?_) (fun V2 d' ho => ?_)
          · simpa using h V2 _ b (ho.cons hb)
          · simpa using hu V2 _ (ho.cons hb)
      · exact hu V1 _ (FailEq.here hb)

theorem d_loopDebugRest {sh : α → String} :
    ∀ (n a : Nat) (s : String) {V : Kn} {d : List (Ev α)} {f : String → Prog α ρ},
    (∀ i, a ≤ i → i < a + n → V.v i) → (∀ d i v, a ≤ i → i < a + n → A d (.read c i v)) →
    (∀ V' vs, vs.length = n →
      Does c A Q QP (f (vs.foldl (fun s x => s ++ ", " ++ sh x) s)) (free (d ++ reads c a vs) V')) →
    Does c A Q QP ((Loop.debugRest sh s (positions a n)).bind f) (free d V) := by
  intro n
  induction n with
  | zero =>
    intro a s V d f hp hA h
    simp only [positions, List.range'_zero, Loop.debugRest, Prog.pure_eq, Prog.ret_bind]
    simpa [reads] using h V [] rfl
  | succ n ih =>
    intro a s V d f hp hA h
    simp only [positions, List.range'_succ, Loop.debugRest, Prog.bind_eq, Prog.bind_assoc, Prog.pure_eq]
    refine d_elMap (hp a (by omega) (by omega)) (fun v => hA _ a v (by omega) (by omega)) (fun V1 v b h1 hb => ?_)
      (fun V1 v hb => by simp at hb)
    simp only [Option.some.injEq] at hb
    subst hb
    refine ih (a + 1) _ (fun i h2 h3 => h1.v i (hp i (by omega) (by omega)))
      (fun d i v h2 h3 => hA d i v (by omega) (by omega)) fun V2 vs hlen => ?_
    simpa [reads] using h V2 (v :: vs) (by simp [hlen])

theorem d_loopDebug {sh : α → String} (n a : Nat) {f : String → Prog α ρ}
    (hp : ∀ i, a ≤ i → i < a + n → V.v i) (hA : ∀ d i v, a ≤ i → i < a + n → A d (.read c i v))
    (h : ∀ V' vs, vs.length = n → Does c A Q QP (f (debugText sh vs)) (free (d ++ reads c a vs) V')) :
    Does c A Q QP ((Loop.debug sh (positions a n)).bind f) (free d V) := by
  cases n with
  | zero =>
    simp only [positions, List.range'_zero, Loop.debug, Prog.pure_eq, Prog.ret_bind]
    simpa [reads, debugText] using h V [] rfl
  | succ n =>
    simp only [positions, List.range'_succ, Loop.debug, Prog.bind_eq, Prog.bind_assoc, Prog.pure_eq]
    refine d_elMap (hp a (by omega) (by omega)) (fun v => hA _ a v (by omega) (by omega)) (fun V1 v b h1 hb => ?_)
      (fun V1 v hb => by simp at hb)
    simp only [Option.some.injEq] at hb
    subst hb
    refine d_loopDebugRest n (a + 1) _ (fun i h2 h3 => h1.v i (hp i (by omega) (by omega)))
      (fun d i v h2 h3 => hA d i v (by omega) (by omega)) fun V2 vs hlen => ?_
    simp only [Prog.ret_bind]
    simpa [reads, debugText] using h V2 (v :: vs) (by simp [hlen])

/-! ## swap -/

theorem d_mutHandle {m : MutMode} {i : Nat} {k : Option Nat → Prog α ρ}
    (h1 : ∀ V', S.held i = none → Does c A Q QP (k (some i)) ⟨S.d, upd S.held i (some none), V'⟩)
    (h2 : ∀ V', Does c A Q QP (k none) { S with V := V' }) : Does c A Q QP ((CVec.mutHandle m i).bind k) S := by
  simp only [CVec.mutHandle, Prog.bind_eq, Prog.bind_assoc, Prog.pure_eq, Prog.ret_bind]
  refine d_len fun V1 n _ _ _ => ?_
  split
  · simp only [Prog.bind_eq, Prog.bind_assoc]
    refine d_colGet ?_ fun _ => h2 _
    cases m
    · simp only [Prog.bind_eq, Prog.bind_assoc, Prog.pure_eq, Prog.ret_bind]
      exact d_lock (fun h => h1 _ h) (fun _ => h2 _)
    · simp only [Prog.bind_eq, Prog.bind_assoc, Prog.pure_eq, Prog.ret_bind]
      exact d_tryLock (fun h => h1 _ h) (h2 _)
  · exact h2 _

theorem d_swap {m : MutMode} {i j : Nat} {k : Bool → Prog α ρ} (hA : i ≠ j → A d (.swap c i j))
    (h1 : ∀ V', i ≠ j → Does c A Q QP (k true) (free (d ++ [.swap c i j]) V'))
    (h2 : ∀ V', Does c A Q QP (k false) (free d V')) : Does c A Q QP ((CVec.swap m i j).bind k) (free d V) := by
  simp only [CVec.swap, Prog.bind_eq, Prog.bind_assoc]
  refine d_mutHandle (fun V1 _ => ?_) (fun V1 => ?_)
  · refine d_mutHandle (fun V2 hj => ?_) (fun V2 => ?_)
    · simp only [Prog.bind_eq, Prog.bind_assoc, Prog.pure_eq, Prog.ret_bind]
      have hij : i ≠ j := by
        rintro rfl
        simp at hj
      refine d_act trivial fun b g _ => ⟨by simpa [devs] using hA hij, ?_⟩
      refine d_unlock (d_unlock ?_)
      have : (upd (upd (dheld (⟨d, upd (upd (fun _ => none) i (some none)) j (some none), V2⟩ : DS α) (.valSwap i j) b) j none) i none)
          = fun _ => none := by
        funext l
        simp only [dheld, upd_apply]
        split
        · rfl
        · split <;> rfl
      simp only [dnext]
      rw [this]
      exact h1 _ hij
    · simp only [Prog.bind_eq, Prog.bind_assoc, Prog.pure_eq, Prog.ret_bind]
      exact d_gripUnlock (h2 _)
  · refine d_mutHandle (fun V2 _ => ?_) (fun V2 => ?_)
    · simp only [Prog.bind_eq, Prog.bind_assoc, Prog.pure_eq, Prog.ret_bind]
      exact d_gripUnlock (h2 _)
    · simp only [Prog.pure_eq, Prog.ret_bind]
      exact h2 _

/-! ## growth -/

theorem d_init {i : Nat} {v : α} {k : Unit → Prog α ρ} (hp : ∀ c v, Ev.publish c i v ∉ d) (hA : A d (.publish c i v))
    (hk : Does c A Q QP (k ()) (free (d ++ [.publish c i v]) V)) :
    Does c A Q QP ((COpt.init i v).bind k) (free d V) := by
  simp only [COpt.init, Prog.bind_eq, Prog.bind_assoc]
  refine d_act (fun _ => hp) fun b g _ => ⟨by simpa [devs] using hA, ?_⟩
  refine d_act trivial fun b' g' _ => ⟨by simp [devs], ?_⟩
  have : dnext c (dnext c (free d V) g (.valWrite i v) b) g' (.stStore i .SOME .release) b' = free (d ++ [.publish c i v]) V := by
    simp [dnext, devs, dheld, dV, upd_none]
  rw [this]
  exact hk

theorem d_writeItems {f : Unit → Prog α ρ} :
    ∀ (n b : Nat) (items : List (Option α)) {d : List (Ev α)},
    (∀ c i v, Ev.publish c i v ∈ d → i < b) →
    (∀ vs v, vs.length < n → vs.map some ++ [some v] <+: items → A (d ++ pubs c b vs) (.publish c (b + vs.length) v)) →
    (∀ vs, vs.length = n → (∃ rest, items = vs.map some ++ rest) → Does c A Q QP (f ()) (free (d ++ pubs c b vs) V)) →
    (∀ vs k, vs.length < n → vs.map some <+: items → QP (free (d ++ pubs c b vs) V) k) →
    Does c A Q QP ((CVec.writeItems b n items).bind f) (free d V) := by
  intro n
  induction n with
  | zero =>
    intro b items d hd hA h hu
    simp only [CVec.writeItems, Prog.pure_eq, Prog.ret_bind]
    simpa [pubs] using h [] rfl ⟨items, rfl⟩
  | succ n ih =>
    intro b items d hd hA h hu
    match items with
    | [] =>
      simp only [CVec.writeItems, Prog.panic_bind]
      simpa [pubs, Does] using hu [] _ (by simp) (by simp)
    | none :: rest =>
      simp only [CVec.writeItems, Prog.panic_bind]
      simpa [pubs, Does] using hu [] _ (by simp) (by simp)
    | some v :: rest =>
      simp only [CVec.writeItems, Prog.bind_eq, Prog.bind_assoc]
      refine d_init (fun c v hm => absurd (hd _ _ _ hm) (Nat.lt_irrefl _))
        (by simpa [pubs] using hA [] v (by simp) ⟨rest, by simp⟩) ?_
      refine ih (b + 1) rest (fun c' i v' hm => ?_) (fun vs v' hlt hpre => ?_) (fun vs hlen hrest => ?_) (fun vs k hlt hpre => ?_)
      · rcases List.mem_append.1 hm with hm | hm
        · have := hd _ _ _ hm; omega
        · simp only [List.mem_singleton, Ev.publish.injEq] at hm
          omega
      · obtain ⟨rest', hpre⟩ := hpre
        have := hA (v :: vs) v' (by simp; omega) ⟨rest', by simp [← hpre]⟩
        simp only [pubs, List.length_cons] at this
        rw [List.append_assoc, List.singleton_append, show b + 1 + vs.length = b + (vs.length + 1) by omega]
        exact this
      · obtain ⟨rest', hrest⟩ := hrest
        have := h (v :: vs) (by simp [hlen]) ⟨rest', by simp [hrest]⟩
        simpa [pubs] using this
      · have := hu (v :: vs) k (by simp; omega) (by simpa using hpre)
        simpa [pubs] using this

end Verif.Weak
