import Verif.Weak.Ops
import Verif.Weak.Spec

/-!
# The API functions under weak memory

Helper file (no property statements).
-/

set_option linter.unusedSimpArgs false
set_option linter.unusedVariables false

namespace Verif.Weak

variable {α β ρ : Type} {D : Mode} {mx : Nat} {K : Know} {Q : Know → ρ → Prop} {QP : Know → PanicKind → Prop}

/-! ## swap -/

/-- Knowledge after the handle of `i` has been dropped. -/
def Know.drop (K : Know) (i : Nat) : Know := { K with
  L := fun j => K.L j ∧ j ≠ i
  U := fun j => K.U j ∧ j ≠ i
  V := fun j => K.V j ∨ j = i
  P := fun j => K.P j ∨ j = i }

theorem Know.Up.drop {K K' : Know} {i : Nat} (h : (K.hold i).Up K') (hl : ¬ K.L i) (hu : ¬ K.U i) : K.Up (K'.drop i) := by
  refine ⟨⟨fun j x => .inl (h.le.v j (.inl x)), fun j x => h.le.a j x, fun j x => .inl (h.le.p j (.inl x)), h.le.rk, h.le.wn⟩,
    fun j => ?_, fun j => ?_, fun j => h.r j, fun j => h.gr j, h.g⟩
  · exact ⟨fun x => (h.u j).1 x.1, fun x => ⟨(h.u j).2 x, fun he => hu (he ▸ x)⟩⟩
  · exact ⟨fun x => ((h.l j).1 x.1).resolve_right x.2, fun x => ⟨(h.l j).2 (.inl x), fun he => hl (he ▸ x)⟩⟩

theorem w_mutHandle {m : MutMode} {i : Nat} {k : Option Nat → Prog α ρ} (hn : ¬ D.nolock) (hw : m = .spinning → K.May D i)
    (h1 : ∀ K', K.Up K' → K'.A i → ¬ K'.L i → ¬ K'.U i → Safe D mx Q QP (k (some i)) (K'.hold i))
    (h2 : ∀ K', K.Up K' → (m = .spinning → K.wn ≤ i) → Safe D mx Q QP (k none) K') :
    Safe D mx Q QP ((CVec.mutHandle m i).bind k) K := by
  simp only [CVec.mutHandle, Prog.bind_eq, Prog.bind_assoc, Prog.pure_eq, Prog.ret_bind]
  refine w_len fun K1 n hu1 hwn _ hall _ => ?_
  split
  · next h =>
    simp only [Prog.bind_eq, Prog.bind_assoc]
    refine w_colGet (fun K2 hu2 hA => ?_) (fun hA => absurd (hall i h).2 hA)
    cases m
    · simp only [Prog.bind_eq, Prog.bind_assoc, Prog.pure_eq, Prog.ret_bind]
      refine w_lock hA hn ((hw rfl).up (hu1.trans hu2)) (fun hl hu => ?_) (fun hv K3 hu3 => ?_)
      · exact h1 K2 (hu1.trans hu2) hA hl hu
      · exact h2 K3 ((hu1.trans hu2).trans hu3) (fun _ => absurd (hu2.le.v i (hall i h).1) hv)
    · simp only [Prog.bind_eq, Prog.bind_assoc, Prog.pure_eq, Prog.ret_bind]
      refine w_tryLock hA hn (fun hl hu => ?_) (fun K3 hu3 => ?_)
      · exact h1 K2 (hu1.trans hu2) hA hl hu
      · exact h2 K3 ((hu1.trans hu2).trans hu3) (fun h => nomatch h)
  · exact h2 K1 hu1 (fun _ => by omega)

theorem w_unlock' {i : Nat} {k : Unit → Prog α ρ} (hA : K.A i) (hl : K.L i) (hk : Safe D mx Q QP (k ()) (K.drop i)) :
    Safe D mx Q QP ((COpt.unlock i).bind k) K := w_unlock hA hl hk

theorem w_swap {m : MutMode} {i j : Nat} {k : Bool → Prog α ρ} (hn : ¬ D.nolock) (hd : ¬ D.deref i ∧ ¬ D.deref j)
    (hf : K.Free) (ho : m = .spinning → D.nest i j)
    (hk : ∀ K' b, K.Up K' → (b = true ∧ i ≠ j) ∨ (b = false ∧ (m = .spinning → K.wn ≤ i ∨ K.wn ≤ j)) → Safe D mx Q QP (k b) K') :
    Safe D mx Q QP ((CVec.swap m i j).bind k) K := by
  simp only [CVec.swap, Prog.bind_eq, Prog.bind_assoc]
  refine w_mutHandle hn (fun _ => hf.may i) (fun K1 hu1 hA1 hl1 hU1 => ?_) (fun K1 hu1 ho1 => ?_)
  · have hf1 := hf.up hu1
    refine w_mutHandle hn (fun hm => ⟨hf1.r, fun j' hj' => ?_⟩) (fun K2 hu2 hA2 hl2 hU2 => ?_) (fun K2 hu2 ho2 => ?_)
    · rcases hj' with h | h
      · exact absurd h (hf1.l j')
      · subst h; exact ho hm
    · simp only [Prog.bind_eq, Prog.bind_assoc, Prog.pure_eq, Prog.ret_bind]
      have hi : K2.L i := (hu2.l i).2 (.inr rfl)
      have hij : i ≠ j := fun h => hl2 (h ▸ hi)
      have hAi : K2.A i := hu2.le.a i hA1
      refine w_act (a := .valSwap i j) ⟨hAi, hA2, .inl hi, .inr rfl, hij, hd⟩ fun _ _ => ?_
      refine w_unlock' hA2 (.inr rfl) ?_
      refine w_unlock' hAi ⟨.inl hi, hij⟩ ?_
      exact hk _ _ (hu1.trans ((hu2.trans ((Know.Up.refl (K2.hold j)).drop hl2 hU2)).drop hl1 hU1)) (.inl ⟨rfl, hij⟩)
    · simp only [Prog.bind_eq, Prog.bind_assoc, Prog.pure_eq, Prog.ret_bind]
      refine w_unlock' (hu2.le.a i hA1) ((hu2.l i).2 (.inr rfl)) ?_
      exact hk _ _ (hu1.trans (hu2.drop hl1 hU1)) (.inr ⟨rfl, fun hm => .inr (Nat.le_trans hu1.le.wn (ho2 hm))⟩)
  · refine w_mutHandle hn (fun _ => (hf.up hu1).may j) (fun K2 hu2 hA2 hl2 hU2 => ?_) (fun K2 hu2 ho2 => ?_)
    · simp only [Prog.bind_eq, Prog.bind_assoc, Prog.pure_eq, Prog.ret_bind]
      refine w_unlock' hA2 (.inr rfl) ?_
      exact hk _ _ (hu1.trans (hu2.trans ((Know.Up.refl (K2.hold j)).drop hl2 hU2))) (.inr ⟨rfl, fun hm => .inl (ho1 hm)⟩)
    · exact hk _ _ (hu1.trans hu2) (.inr ⟨rfl, fun hm => .inl (ho1 hm)⟩)

/-! ## growth -/

/-- More knowledge, after growing the storage. -/
structure Know.Grown (K K' : Know) : Prop where
  le : K.Le K'
  u : ∀ i, K'.U i ↔ K.U i
  l : ∀ i, K'.L i ↔ K.L i
  r : ∀ i, K'.R i ↔ K.R i

theorem Know.Up.grown {K K' : Know} (h : K.Up K') : K.Grown K' := ⟨h.le, h.u, h.l, h.r⟩

theorem w_growTo {b n : Nat} {k : Unit → Prog α ρ} (hn : b + n ≤ mx) (hU : ∀ i, b ≤ i → i < b + n → K.U i)
    (hA : ∀ i, i < b → K.A i) (hG : ¬ K.G) (hGr : ∀ i, ¬ K.Gr i)
    (hk : ∀ K', K.Grown K' → (∀ i, i < b + n → K'.A i) → Safe D mx Q QP (k ()) K') :
    Safe D mx Q QP ((Col.growTo (b + n)).bind k) K := by
  simp only [Col.growTo, Prog.bind_eq, Prog.bind_assoc]
  refine w_capLoad fun K1 c hu h3 h4 hC => ?_
  split
  · next h => exact hk K1 hu.grown (fun i hi => h4 i (Nat.lt_of_lt_of_le hi h))
  · next h =>
    simp only [Prog.bind_eq, Prog.bind_assoc, Prog.pure_eq, Prog.ret_bind]
    refine w_maxCap ?_
    rw [if_pos hn]
    simp only [Prog.bind_eq, Prog.bind_assoc, Prog.pure_eq, Prog.ret_bind]
    have hb : b ≤ c := by
      rcases Nat.eq_zero_or_pos b with h | h
      · omega
      · have := h3 (b - 1) (hA _ (by omega)); omega
    refine w_act (a := .growAlloc (b + n)) ⟨fun h => hG (hu.g.1 h), hn, c, hC, (hu.u c).2 (hU c hb (by omega)),
      fun h => hGr c ((hu.gr c).1 h), by omega⟩ fun _ _ => ?_
    refine w_act (a := .growPublish .release) ⟨rfl, trivial⟩ fun _ _ => ?_
    refine hk _ ?_ (fun i hi => .inr hi)
    exact ⟨⟨fun i x => hu.le.v i x, fun i x => .inl (hu.le.a i x), fun i x => hu.le.p i x, hu.le.rk, hu.le.wn⟩, hu.u, hu.l, hu.r⟩

theorem w_assert {i : Nat} {k : Unit → Prog α ρ} (h1 : i < mx → Safe D mx Q QP (k ()) K) (h2 : mx ≤ i → QP K .maxCapacity) :
    Safe D mx Q QP ((Col.assertHasCapacityFor i).bind k) K := by
  simp only [Col.assertHasCapacityFor, Prog.bind_eq, Prog.bind_assoc]
  refine w_maxCap ?_
  split
  · next h => exact h1 h
  · next h => exact h2 (Nat.le_of_not_lt h)

theorem w_singleItem {b : Nat} {k : Unit → Prog α ρ} (hU : K.U b) (hG : ¬ K.G) (hGr : ∀ i, ¬ K.Gr i)
    (hR : ∀ i, K.R i ↔ b ≤ i ∧ i < b + 1) (hp : mx ≤ b → QP K .maxCapacity) (hk : ∀ K', K.Grown K' → K'.A b → Safe D mx Q QP (k ()) K') :
    Safe D mx Q QP ((Col.singleItem b).bind k) K := by
  simp only [Col.singleItem, Prog.bind_eq, Prog.bind_assoc]
  refine w_assert (fun hm => ?_) hp
  refine w_spinCap (fun c hs => ⟨⟨b, (hR b).2 (by omega)⟩, fun i hi => ?_⟩) fun K1 c hs hu h3 h4 hC => ?_
  · have hs : c < b := by
      unfold writePermit at hs
      split at hs
      · cases hs
      · cases hs
      · next h' => exact Nat.compare_eq_gt.1 h'
    have := (hR i).1 hi
    omega
  split
  · next h =>
    have hlt : b < c := by
      unfold writePermit at h
      split at h
      · next h' => exact Nat.compare_eq_lt.1 h'
      · cases h
      · cases h
    exact hk K1 hu.grown (h4 b hlt)
  · next h =>
    have heq : b = c := by
      unfold writePermit at h
      split at h
      · cases h
      · next h' => exact Nat.compare_eq_eq.1 h'
      · cases h
    subst heq
    refine w_growTo (n := 1) hm (fun i h1 h2 => ?_) h4 (fun h => hG (hu.g.1 h)) (fun i h => hGr i ((hu.gr i).1 h)) (fun K2 hg hA => ?_)
    · have : i = b := by omega
      subst this; exact (hu.u i).2 hU
    · exact hk K2 ⟨hu.le.trans hg.le, fun i => (hg.u i).trans (hu.u i), fun i => (hg.l i).trans (hu.l i),
        fun i => (hg.r i).trans (hu.r i)⟩ (hA b (by omega))
  · next h =>
    rw [h] at hs; cases hs

theorem w_nItems {b n : Nat} {k : Unit → Prog α ρ} (hU : ∀ i, b ≤ i → i < b + n → K.U i) (hG : ¬ K.G) (hGr : ∀ i, ¬ K.Gr i)
    (hR : ∀ i, K.R i ↔ b ≤ i ∧ i < b + n) (hp : 0 < n → mx < b + n → QP K .maxCapacity) (hk : ∀ K', K.Grown K' → (∀ i, b ≤ i → i < b + n → K'.A i) → Safe D mx Q QP (k ()) K') :
    Safe D mx Q QP ((Col.nItems b n).bind k) K := by
  unfold Col.nItems
  split
  · next h => exact hk K (Know.Up.refl K).grown (fun i h1 h2 => by omega)
  · next h0 =>
    simp only [Prog.bind_eq, Prog.bind_assoc]
    refine w_assert (fun hm => ?_) (fun h => hp (by omega) (by omega))
    refine w_spinCap (fun c hs => ⟨⟨b, (hR b).2 (by omega)⟩, fun i hi => ?_⟩) fun K1 c hs hu h3 h4 hC => ?_
    · have hs : c < b := by
        unfold writePermitN at hs
        dsimp only at hs
        split at hs
        · cases hs
        · next h1 h2 => first | exact Nat.compare_eq_gt.1 h1 | exact Nat.compare_eq_gt.1 h2
        · cases hs
      have := (hR i).1 hi
      omega
    split
    · next h =>
      have hlt : b + n - 1 < c := by
        unfold writePermitN at h
        dsimp only at h
        split at h
        · next h' => exact Nat.compare_eq_lt.1 h'
        · cases h
        · cases h
      exact hk K1 hu.grown (fun i _ _ => h4 i (by omega))
    · next h =>
      have hle : b ≤ c := by
        unfold writePermitN at h
        dsimp only at h
        split at h
        · cases h
        · cases h
        · next h1 h2 =>
          exact Nat.le_of_not_lt fun h' => h1 (Nat.compare_eq_gt.2 h')
      refine w_growTo (n := n) (by omega) (fun i h1 h2 => (hu.u i).2 (hU i h1 h2)) (fun i hi => h4 i (by omega))
        (fun h => hG (hu.g.1 h)) (fun i h => hGr i ((hu.gr i).1 h)) (fun K2 hg hA => ?_)
      exact hk K2 ⟨hu.le.trans hg.le, fun i => (hg.u i).trans (hu.u i), fun i => (hg.l i).trans (hu.l i),
          fun i => (hg.r i).trans (hu.r i)⟩ (fun i _ hi => hA i hi)
    · next h =>
      rw [h] at hs; cases hs

/-- The positions of `K` from `b` to `b + n` have been initialised. -/
structure Know.Filled (K K' : Know) (b n : Nat) : Prop where
  le : K.Le K'
  r : ∀ i, K'.R i ↔ K.R i
  l : ∀ i, K'.L i → K.L i
  v : ∀ i, b ≤ i → i < b + n → K'.V i ∧ K'.P i

theorem w_init {i : Nat} {v : α} {k : Unit → Prog α ρ} (hA : K.A i) (hU : K.U i) (hRA : ∀ j, K.R j → K.A j)
    (hk : ∀ K', K.Le K' → (∀ j, K'.U j ↔ K.U j ∧ j ≠ i) → (∀ j, K'.L j → K.L j) → (∀ j, K'.R j ↔ K.R j) → K'.V i → K'.P i →
      Safe D mx Q QP (k ()) K') :
    Safe D mx Q QP ((COpt.init i v).bind k) K := by
  simp only [COpt.init, Prog.bind_eq, Prog.bind_assoc]
  refine w_act (a := .valWrite i v) ⟨hA, .inr ⟨hU, hRA⟩⟩ fun _ _ => ?_
  refine w_act (a := .stStore i .SOME .release) ⟨hA, rfl, rfl, .inr ⟨hU, .inr rfl⟩⟩ fun _ _ => ?_
  exact hk _ ⟨fun _ h => .inl h, fun _ h => h, fun _ h => .inl h, Nat.le_refl _, Nat.le_refl _⟩ (fun _ => .rfl) (fun _ h => h.1)
    (fun _ => .rfl) (.inr rfl) (.inr rfl)

theorem w_writeItems : ∀ {n b : Nat} {items : List (Option α)} {K : Know} {k : Unit → Prog α ρ},
    (∀ i, b ≤ i → i < b + n → K.U i ∧ K.A i) → (∀ i, K.R i → K.A i) →
    (items.length < n → ∀ K', K.Le K' → (∀ i, K'.L i → K.L i) → (∀ i, K'.R i ↔ K.R i) → QP K' .iterTooShort) →
    (none ∈ items → ∀ K', K.Le K' → (∀ i, K'.L i → K.L i) → (∀ i, K'.R i ↔ K.R i) → QP K' .userCode) →
    (∀ K', K.Filled K' b n → Safe D mx Q QP (k ()) K') →
    Safe D mx Q QP ((CVec.writeItems b n items).bind k) K := by
  intro n
  induction n with
  | zero =>
    intro b items K k _ _ _ _ hk
    exact hk K ⟨.refl K, fun _ => .rfl, fun _ h => h, fun i h1 h2 => by omega⟩
  | succ n ih =>
    intro b items K k hU hRA hs hp hk
    match items with
    | [] => exact hs (by simp) K (.refl K) (fun _ h => h) (fun _ => .rfl)
    | none :: _ => exact hp (by simp) K (.refl K) (fun _ h => h) (fun _ => .rfl)
    | some v :: vs =>
      simp only [CVec.writeItems, Prog.bind_eq, Prog.bind_assoc]
      refine w_init (hU b (by omega) (by omega)).2 (hU b (by omega) (by omega)).1 hRA fun K1 hle hU1 hL1 hR1 hV1 hP1 => ?_
      refine ih (fun i h1 h2 => ⟨(hU1 i).2 ⟨(hU i (by omega) (by omega)).1, by omega⟩, hle.a i (hU i (by omega) (by omega)).2⟩)
        (fun i hi => hle.a i (hRA i ((hR1 i).1 hi)))
        (fun h K' hK hL hR => hs (by simpa using h) K' (hle.trans hK) (fun i h => hL1 i (hL i h)) (fun i => (hR i).trans (hR1 i)))
        (fun h K' hK hL hR => hp (by simp [h]) K' (hle.trans hK) (fun i h => hL1 i (hL i h)) (fun i => (hR i).trans (hR1 i)))
        (fun K2 hf => hk K2 ⟨hle.trans hf.le, fun i => (hf.r i).trans (hR1 i), fun i h => hL1 i (hf.l i h), fun i h1 h2 => ?_⟩)
      rcases Nat.eq_or_lt_of_le h1 with h | h
      · subst h; exact ⟨hf.le.v _ hV1, hf.le.p _ hP1⟩
      · exact hf.v i h (by omega)

/-! ## what is known when a call starts, returns, panics -/

/-- The caller has references and pointers according to the operation. -/
structure Started (D : Mode) (op : Op α β) (K : Know) : Prop where
  u : ∀ i, ¬ K.U i
  l : ∀ i, ¬ K.L i
  r : ∀ i, ¬ K.R i
  gr : ∀ i, ¬ K.Gr i
  g : ¬ K.G
  el : ∀ i ∈ op.needs, K.V i ∧ K.A i
  cn : ∀ i ∈ op.needs, i < K.wn
  pt : ∀ i ∈ op.needsPtr, K.V i ∧ K.A i ∧ (D.deref i → K.P i)

/-- The call has returned `x`. -/
structure Done (D : Mode) (op : Op α β) (K0 K : Know) (x : Ret α β) : Prop where
  le : K0.Le K
  l : ∀ i, ¬ K.L i
  own : ∀ i, K.R i → K.A i
  el : ∀ i ∈ x.elements, K.V i ∧ K.A i
  cn : ∀ i ∈ x.elements, i < K.wn
  pt : ∀ i ∈ x.pointers, K.V i ∧ K.A i ∧ (D.deref i → K.P i)
  grow : ∀ n, op.size = some n → ∃ b, x = .nat b ∧ K0.lo ≤ b ∧ K0.rk ≤ b ∧ b + n ≤ K.rk ∧
    ∀ i, b ≤ i → i < b + n → K.R i ∧ K.V i ∧ K.A i ∧ K.P i
  len : ∀ n, op.ReportsLen n x → K0.wn ≤ n ∧ n ≤ K.wn ∧ (∀ i, i < n → K.V i ∧ K.A i) ∧
    (D.nolock → ∀ k, k ≤ K0.rk → (∀ i, i < k → K0.V i ∧ K0.A i) → k ≤ n)
  get : ∀ i, op = .get i → x = .elem (some i) ∨ (x = .elem none ∧ K0.wn ≤ i ∧
    (D.nolock → i < K0.rk → ¬ ∀ j, j ≤ i → K0.V j ∧ K0.A j))
  cloned : ∀ i, op = .getCloned i → i < K0.rk → K0.V i → K0.A i → ∃ v, x = .optVal (some v)
  raw : ∀ o i, op = .getRaw o i → D.nolock → i < K0.rk → K0.V i → K0.A i → x = .ptr (some i)
  swap : ∀ m i j, op = .swap m i j → (x = .bool true ∧ i ≠ j) ∨
    (x = .bool false ∧ (m = .spinning → K0.wn ≤ i ∨ K0.wn ≤ j))
  slSwap : ∀ m s i j, op = .slSwap m s i j → (x = .bool true ∧ i < s.len ∧ j < s.len ∧ i ≠ j) ∨
    (x = .bool false ∧ (m = .spinning → s.len ≤ i ∨ s.len ≤ j))
  cap : op = .capacity → ∃ a, x = .nat a ∧ (∀ i, K0.A i → i < a) ∧ ∀ i, i < a → K.A i

/-- The positions reserved by a call that has panicked with `k` are allocated, or they reach beyond the maximum capacity, or
the closure of `push_for_idx` has panicked. -/
def Left (mx : Nat) (op : Op α β) (K : Know) (k : PanicKind) : Prop :=
  (k ≠ .maxCapacity ∧ ∀ i, K.R i → K.A i) ∨
  (k = .maxCapacity ∧ (∀ i, ¬ K.Gr i) ∧ (∃ j, K.R j ∧ mx ≤ j) ∧ ∀ i j, K.R i → i ≤ j → j < mx → K.R j) ∨
  (k ≠ .maxCapacity ∧ (∀ i, ¬ K.Gr i) ∧ ∃ f, op = .pushForIdx f ∧ k = .userCode)

/-- The call has panicked with `k`. -/
structure Failed (D : Mode) (mx : Nat) (op : Op α β) (K0 K : Know) (k : PanicKind) : Prop where
  le : K0.Le K
  l : ∀ i, ¬ K.L i
  own : Left mx op K k
  may : op.MayPanic k
  index : ∀ i, op = .index i → K0.wn ≤ i
  split : ∀ i, op = .splitAt i → K0.wn < i

theorem Failed.lower {op : Op α β} {K0 K : Know} {k : PanicKind} {M : Nat} (h : Failed D M op K0 K k) (hM : k = .maxCapacity → mx ≤ M) :
    Failed D mx op K0 K k where
  le := h.le
  l := h.l
  own := h.own.imp id (.imp (fun ⟨h1, h0, ⟨j, hj, hl⟩, h2⟩ => ⟨h1, h0, ⟨j, hj, Nat.le_trans (hM h1) hl⟩,
    fun i j hi hij hj => h2 i j hi hij (Nat.lt_of_lt_of_le hj (hM h1))⟩) id)
  may := h.may
  index := h.index
  split := h.split

/-- The operation may be called in an execution with restrictions `D`. -/
structure Allowed (D : Mode) (op : Op α β) : Prop where
  deref : ∀ i, D.deref i → ¬ op.MayWrite i ∧ op.PtrAcquire i
  noderef : ∀ e, op = .deref e → D.deref e
  nolock : D.nolock → ¬ op.Locks
  nest : ∀ i j, op.SwapsWith i j → D.nest i j

/-- Operations about whose result nothing special is known. -/
def plain : Op α β → Bool
  | .push _ | .pushForIdx _ | .extend _ | .extendN _ _ | .extendForIdx _ _ | .len | .iter | .asSlice | .get _ | .getCloned _
  | .getRaw _ _ | .swap _ _ _ | .slSwap _ _ _ _ | .capacity => false
  | _ => true

theorem Done.plain {op : Op α β} {K0 K : Know} {x : Ret α β} (h : plain op = true) (le : K0.Le K) (l : K.Free)
    (el : ∀ i ∈ x.elements, (K.V i ∧ K.A i) ∧ i < K.wn) (pt : ∀ i ∈ x.pointers, K.V i ∧ K.A i ∧ (D.deref i → K.P i)) :
    Done D op K0 K x := by
  refine ⟨le, l.l, l.own, fun i hi => (el i hi).1, fun i hi => (el i hi).2, pt, ?_, ?_, ?_, ?_, ?_, ?_, ?_, fun hi => by subst hi; cases h⟩
  · intro n hn; cases op <;> first | (cases hn; done) | (cases h; done)
  · intro n hn; cases op <;> first | exact hn.elim | (cases h; done)
  · intro i hi; subst hi; cases h
  · intro i hi; subst hi; cases h
  · intro o i hi; subst hi; cases h
  · intro m i j hi; subst hi; cases h
  · intro m s i j hi; subst hi; cases h

/-- Nothing is handed out. -/
theorem Done.value {op : Op α β} {K0 K : Know} {x : Ret α β} (h : Weak.plain op = true) (hu : K0.Up K) (l : K0.Free)
    (el : x.elements = []) (pt : x.pointers = []) : Done D op K0 K x :=
  .plain h hu.le (l.up hu) (by simp [el]) (by simp [pt])

theorem Failed.plain {op : Op α β} {K0 K : Know} {k : PanicKind} (hu : K0.Up K) (l : K0.Free) (hm : op.MayPanic k)
    (h1 : ∀ i, op ≠ .index i) (h2 : ∀ i, op ≠ .splitAt i) (h3 : k ≠ .maxCapacity := by decide) : Failed D mx op K0 K k :=
  ⟨hu.le, (l.up hu).l, .inl ⟨h3, (l.up hu).own⟩, hm, fun i h => absurd h (h1 i), fun i h => absurd h (h2 i)⟩

theorem Safe.ret {x : ρ} (h : Q K x) : Safe (α := α) D mx Q QP (.ret x) K := h

theorem Safe.panic {k : PanicKind} (h : QP K k) : Safe (α := α) D mx Q QP (.panic k : Prog α ρ) K := h

section Growth

variable {op : Op α β}

/-- The first action of every growth call. -/
theorem w_reserve {n : Nat} {k : Nat → Prog α (Ret α β)} (hs : Started D op K)
    (hk : ∀ K' b, K.Le K' → (∀ i, ¬ K'.L i) → (∀ i, ¬ K'.Gr i) → ¬ K'.G → K.lo ≤ b → K.rk ≤ b → b + n ≤ K'.rk →
      (∀ i, b ≤ i → i < b + n → K'.U i ∧ K'.R i) → (∀ i, K'.R i ↔ b ≤ i ∧ i < b + n) → Safe D mx (Done D op K) (Failed D mx op K) (k b) K') :
    Safe D mx (Done D op K) (Failed D mx op K) ((act (.resFetchAdd n .relaxed)).bind k) K := by
  refine w_act trivial fun (b : Nat) hb => ?_
  have hb : K.lo ≤ b ∧ K.rk ≤ b ∧ ∀ i, K.R i → i < b := hb
  exact hk _ b ⟨fun _ h => h, fun _ h => h, fun _ h => h, Nat.le_max_left _ _, Nat.le_refl _⟩ hs.l hs.gr hs.g hb.1 hb.2.1
    (Nat.le_max_right _ _) (fun i h1 h2 => ⟨.inr ⟨h1, h2⟩, .inr ⟨h1, h2⟩⟩)
    (fun i => ⟨fun h => h.resolve_left (hs.r i), .inr⟩)

theorem Failed.growth {K0 K : Know} {k : PanicKind} {n : Nat} (hs : op.size = some n) (le : K0.Le K) (l : ∀ i, ¬ K.L i)
    (own : Left mx op K k) (hm : op.MayPanic k) : Failed D mx op K0 K k :=
  ⟨le, l, own, hm, fun i h => (by subst h; cases hs), fun i h => (by subst h; cases hs)⟩

theorem Done.growth {K0 K : Know} {n b : Nat} (hs : op.size = some n) (le : K0.Le K) (l : ∀ i, ¬ K.L i) (h1 : K0.lo ≤ b)
    (h2 : K0.rk ≤ b) (h3 : b + n ≤ K.rk) (h4 : ∀ i, b ≤ i → i < b + n → K.R i ∧ K.V i ∧ K.A i ∧ K.P i)
    (h5 : ∀ i, K.R i → b ≤ i ∧ i < b + n) : Done D op K0 K (.nat b : Ret α β) := by
  refine ⟨le, l, fun i hi => (h4 i (h5 i hi).1 (h5 i hi).2).2.2.1, by simp [Ret.elements], by simp [Ret.elements], by simp [Ret.pointers], ?_, ?_, ?_, ?_, ?_, ?_, ?_, fun hi => by subst hi; cases hs⟩
  · intro n' hn
    rw [hs] at hn; cases hn
    exact ⟨b, rfl, h1, h2, h3, h4⟩
  · intro n hn; cases op <;> first | exact hn.elim | (cases hs; done)
  · intro i hi; subst hi; cases hs
  · intro i hi; subst hi; cases hs
  · intro o i hi; subst hi; cases hs
  · intro m i j hi; subst hi; cases hs
  · intro m s i j hi; subst hi; cases hs

theorem left_max {b n : Nat} (hGr : ∀ i, ¬ K.Gr i) (hn : 0 < n) (hR : ∀ i, K.R i ↔ b ≤ i ∧ i < b + n) (h : mx < b + n) :
    Left mx op K .maxCapacity :=
  .inr (.inl ⟨rfl, hGr, ⟨b + n - 1, (hR _).2 (by omega), by omega⟩, fun i j hi hij hj => (hR j).2 (by have := (hR i).1 hi; omega)⟩)

theorem w_finish1 {b : Nat} {v : α} {K0 : Know} (hs : op.size = some 1) (hle : K0.Le K) (hL : ∀ i, ¬ K.L i)
    (hGr : ∀ i, ¬ K.Gr i) (hG : ¬ K.G) (h1 : K0.lo ≤ b) (h2 : K0.rk ≤ b) (h3 : b + 1 ≤ K.rk)
    (hU : ∀ i, b ≤ i → i < b + 1 → K.U i ∧ K.R i) (hR : ∀ i, K.R i ↔ b ≤ i ∧ i < b + 1) (hm : op.MayPanic .maxCapacity) :
    Safe D mx (Done D op K0) (Failed D mx op K0)
      ((Col.singleItem b).bind fun _ => (COpt.init b v).bind fun _ => .ret (Ret.nat b : Ret α β)) K := by
  refine w_singleItem (hU b (by omega) (by omega)).1 hG hGr hR (fun h => Failed.growth hs hle hL (left_max hGr (by omega) hR (by omega)) hm) fun K1 hg hA => ?_
  refine w_init hA ((hg.u b).2 (hU b (by omega) (by omega)).1) (fun i hi => by
    have := (hR i).1 ((hg.r i).1 hi)
    obtain rfl : i = b := by omega
    exact hA) fun K2 hle2 hU2 hL2 hR2 hV hP => ?_
  refine Done.growth hs ((hle.trans hg.le).trans hle2) (fun i h => hL i ((hg.l i).1 (hL2 i h))) h1 h2
    (Nat.le_trans h3 (Nat.le_trans hg.le.rk hle2.rk)) (fun i h5 h6 => ?_)
    (fun i hi => (hR i).1 ((hg.r i).1 ((hR2 i).1 hi)))
  have : i = b := by omega
  subst this
  exact ⟨(hR2 i).2 ((hg.r i).2 (hU i h5 h6).2), hV, hle2.a i hA, hP⟩

theorem w_finishN {b n : Nat} {items : List (Option α)} {K0 : Know} (hs : op.size = some n) (hle : K0.Le K) (hL : ∀ i, ¬ K.L i)
    (h1 : K0.lo ≤ b) (h2 : K0.rk ≤ b) (h3 : b + n ≤ K.rk)
    (hU : ∀ i, b ≤ i → i < b + n → K.U i ∧ K.R i ∧ K.A i) (hR : ∀ i, K.R i ↔ b ≤ i ∧ i < b + n)
    (hp1 : items.length < n → op.MayPanic .iterTooShort) (hp2 : none ∈ items → op.MayPanic .userCode) :
    Safe D mx (Done D op K0) (Failed D mx op K0)
      ((CVec.writeItems b n items).bind fun _ => .ret (Ret.nat b : Ret α β)) K := by
  have left : ∀ {K'}, K.Le K' → (∀ i, K'.R i ↔ K.R i) → ∀ {k}, k ≠ .maxCapacity → Left mx op K' k := fun hK hR' _ hk =>
    .inl <| .intro hk fun i hi => hK.a i (hU i ((hR i).1 ((hR' i).1 hi)).1 ((hR i).1 ((hR' i).1 hi)).2).2.2
  refine w_writeItems (fun i h5 h6 => ⟨(hU i h5 h6).1, (hU i h5 h6).2.2⟩)
    (fun i hi => (hU i ((hR i).1 hi).1 ((hR i).1 hi).2).2.2)
    (fun h K' hK hL' hR' => Failed.growth hs (hle.trans hK) (fun i h => hL i (hL' i h)) (left hK hR' (by decide)) (hp1 h))
    (fun h K' hK hL' hR' => Failed.growth hs (hle.trans hK) (fun i h => hL i (hL' i h)) (left hK hR' (by decide)) (hp2 h))
    (fun K1 hf => ?_)
  refine Done.growth hs (hle.trans hf.le) (fun i h => hL i (hf.l i h)) h1 h2 (Nat.le_trans h3 hf.le.rk) (fun i h5 h6 => ?_)
    (fun i hi => (hR i).1 ((hf.r i).1 hi))
  exact ⟨(hf.r i).2 (hU i h5 h6).2.1, (hf.v i h5 h6).1, hf.le.a i (hU i h5 h6).2.2, (hf.v i h5 h6).2⟩

theorem w_extendN {items : List (Option α)} {n : Nat} (hz : op.size = some n) (hs : Started D op K)
    (hm : op.MayPanic .maxCapacity) (hp1 : items.length < n → op.MayPanic .iterTooShort)
    (hp2 : none ∈ items → op.MayPanic .userCode) :
    Safe D mx (Done D op K) (Failed D mx op K) ((CVec.extendN items n).bind fun b => .ret (Ret.nat b : Ret α β)) K := by
  simp only [CVec.extendN, Prog.bind_eq, Prog.bind_assoc, Prog.pure_eq, Prog.ret_bind]
  refine w_reserve hs fun K1 b hle hL hGr hG h1 h2 h3 hU hR => ?_
  refine w_nItems (fun i h5 h6 => (hU i h5 h6).1) hG hGr hR (fun h0 h => Failed.growth hz hle hL (left_max hGr h0 hR h) hm) fun K2 hg hA => ?_
  exact w_finishN hz (hle.trans hg.le) (fun i h => hL i ((hg.l i).1 h)) h1 h2 (Nat.le_trans h3 hg.le.rk)
    (fun i h5 h6 => ⟨(hg.u i).2 (hU i h5 h6).1, (hg.r i).2 (hU i h5 h6).2, hA i h5 h6⟩) (fun i => (hg.r i).trans (hR i)) hp1 hp2

theorem w_growth (hz : ∃ n, op.size = some n) (hs : Started D op K) :
    Safe D mx (Done D op K) (Failed D mx op K) op.prog K := by
  cases op with
  | push v =>
    simp only [Op.prog, Prog.map_eq, CVec.push, Prog.bind_eq, Prog.bind_assoc, Prog.pure_eq, Prog.ret_bind]
    refine w_reserve hs fun K1 b hle hL hGr hG h1 h2 h3 hU hR => ?_
    exact w_finish1 rfl hle hL hGr hG h1 h2 h3 hU hR trivial
  | pushForIdx f =>
    simp only [Op.prog, Prog.map_eq, CVec.pushForIdx, Prog.bind_eq, Prog.bind_assoc, Prog.pure_eq, Prog.ret_bind]
    refine w_reserve hs fun K1 b hle hL hGr hG h1 h2 h3 hU hR => ?_
    split
    · simp only [Prog.bind_eq, Prog.bind_assoc, Prog.pure_eq, Prog.ret_bind]
      exact w_finish1 rfl hle hL hGr hG h1 h2 h3 hU hR trivial
    · next h => exact Failed.growth rfl hle hL (.inr (.inr ⟨by decide, hGr, f, rfl, rfl⟩)) ⟨b, h⟩
  | extend it => exact w_extendN rfl hs trivial (fun h => h) (fun h => h)
  | extendN items n => exact w_extendN rfl hs trivial (fun h => h) (fun h => h)
  | extendForIdx f n =>
    simp only [Op.prog, Prog.map_eq, CVec.extendForIdx, Prog.bind_eq, Prog.bind_assoc, Prog.pure_eq, Prog.ret_bind]
    refine w_reserve hs fun K1 b hle hL hGr hG h1 h2 h3 hU hR => ?_
    refine w_nItems (fun i h5 h6 => (hU i h5 h6).1) hG hGr hR (fun h0 h => Failed.growth rfl hle hL (left_max hGr h0 hR h) trivial) fun K2 hg hA => ?_
    have hle2 := hle.trans hg.le
    have hL2 : ∀ i, ¬ K2.L i := fun i h => hL i ((hg.l i).1 h)
    have left : ∀ {k}, k ≠ .maxCapacity → Left mx (.extendForIdx f n : Op α β) K2 k := fun hk =>
      .inl <| .intro hk fun i hi => hA i ((hR i).1 ((hg.r i).1 hi)).1 ((hR i).1 ((hg.r i).1 hi)).2
    split
    · next it hit =>
      split
      · next hh =>
        simp only [Prog.bind_eq, Prog.bind_assoc, Prog.pure_eq, Prog.ret_bind]
        exact w_finishN rfl hle2 hL2 h1 h2 (Nat.le_trans h3 hg.le.rk)
          (fun i h5 h6 => ⟨(hg.u i).2 (hU i h5 h6).1, (hg.r i).2 (hU i h5 h6).2, hA i h5 h6⟩) (fun i => (hg.r i).trans (hR i))
          (fun h => ⟨b, it, hit, hh, h⟩) (fun h => ⟨b, .inr ⟨it, hit, h⟩⟩)
      · next hh => exact Failed.growth rfl hle2 hL2 (left (by decide)) ⟨b, it, hit, hh⟩
    · next hit => exact Failed.growth rfl hle2 hL2 (left (by decide)) ⟨b, .inl hit⟩
  | _ => obtain ⟨n, h⟩ := hz; cases h

end Growth

/-! ## the other functions -/

theorem elements_slice {p : Nat → Prop} {s : Slc} {r : Rng} (h : ∀ i ∈ positions s.a s.len, p i) :
    ∀ i ∈ positions (s.slice r).a (s.slice r).len, p i := by
  intro i hi
  refine h i ?_
  rw [List.mem_range'_1] at hi ⊢
  have := rangeLimits_le r s.len
  simp only [Slc.slice] at hi
  omega

theorem w_slGet {s : Slc} {i : Nat} {k : Option Nat → Prog α ρ} (he : ∀ i ∈ positions s.a s.len, K.V i ∧ K.A i)
    (h1 : ∀ K', K.Up K' → K'.V (s.a + i) → K'.A (s.a + i) → i < s.len → Safe D mx Q QP (k (some (s.a + i))) K')
    (h2 : s.len ≤ i → Safe D mx Q QP (k none) K) : Safe D mx Q QP ((s.get i).bind k) K := by
  unfold Slc.get
  split
  · next h =>
    have hm := he (s.a + i) (List.mem_range'_1.2 ⟨by omega, by omega⟩)
    exact w_colGet (fun K' hu hA => h1 K' hu (hu.le.v _ hm.1) hA h) (fun hA => absurd hm.2 hA)
  · next h => exact h2 (Nat.le_of_not_lt h)

theorem w_slIndex {s : Slc} {i : Nat} {k : Nat → Prog α ρ} (he : ∀ i ∈ positions s.a s.len, K.V i ∧ K.A i)
    (h1 : ∀ K', K.Up K' → K'.V (s.a + i) → K'.A (s.a + i) → i < s.len → Safe D mx Q QP (k (s.a + i)) K')
    (h2 : s.len ≤ i → QP K .outOfBounds) : Safe D mx Q QP ((s.index i).bind k) K := by
  simp only [Slc.index, Prog.bind_eq, Prog.bind_assoc]
  exact w_slGet he (fun K' hu hV hA hi => h1 K' hu hV hA hi) (fun h => h2 h)

theorem w_index {i : Nat} {k : Nat → Prog α ρ} (h1 : ∀ K', K.Up K' → K'.V i → K'.A i → i < K'.wn → Safe D mx Q QP (k i) K')
    (h2 : ∀ K', K.Up K' → K.wn ≤ i → QP K' .outOfBounds) : Safe D mx Q QP ((CVec.index i).bind k) K := by
  simp only [CVec.index, Prog.bind_eq, Prog.bind_assoc]
  exact w_get (fun K' hu hV hA hw => h1 K' hu hV hA hw) (fun K' hu hw _ => h2 K' hu hw)

theorem w_chunkLoop {n c : Nat} : ∀ {l : List Nat} {K : Know} {k : List Slc → Prog α ρ},
    (∀ K' ss, K.Up K' → (∀ i ∈ ss.flatMap (fun s : Slc => positions s.a s.len), (K'.V i ∧ K'.A i) ∧ i < K'.wn) → Safe D mx Q QP (k ss) K') →
    Safe D mx Q QP ((CVec.chunkLoop n c l).bind k) K := by
  intro l
  induction l with
  | nil => intro K k hk; exact hk K [] (.refl K) (by simp)
  | cons i is ih =>
    intro K k hk
    simp only [CVec.chunkLoop, Prog.bind_eq, Prog.bind_assoc, Prog.pure_eq, Prog.ret_bind]
    refine w_slice fun K1 s n hu _ _ _ hs _ => ?_
    refine ih fun K2 ss hu2 hss => hk K2 _ (hu.trans hu2) fun j hj => ?_
    rw [List.flatMap_cons, List.mem_append] at hj
    rcases hj with h | h
    · exact ⟨⟨hu2.le.v j (hs j h).1.1, hu2.le.a j (hs j h).1.2⟩, Nat.lt_of_lt_of_le (hs j h).2 hu2.le.wn⟩
    · exact hss j h

theorem w_getRawVec {o : MOrd} {i : Nat} {k : Option Nat → Prog α ρ}
    (h1 : ∀ K', K.Up K' → K'.V i → K'.A i → (o.acq = true → K'.P i) → Safe D mx Q QP (k (some i)) K')
    (h2 : ∀ K', K.Up K' → (D.nolock → i < K.rk → K.V i → ¬ K.A i) → Safe D mx Q QP (k none) K') :
    Safe D mx Q QP ((CVec.getRaw o i).bind k) K := by
  simp only [CVec.getRaw, Prog.bind_eq, Prog.bind_assoc]
  refine w_reservedLen fun K1 n hu hA hc => ?_
  split
  · next h =>
    simp only [Prog.bind_eq, Prog.bind_assoc]
    refine w_colGet (fun K2 hu2 hA2 => ?_) (fun hA2 => absurd (hA i h) hA2)
    refine w_getRaw hA2 (fun K3 hu3 hV hP => ?_) (fun K3 hu3 hV => ?_)
    · exact h1 K3 ((hu.trans hu2).trans hu3) hV (hu3.le.a i hA2) hP
    · exact h2 K3 ((hu.trans hu2).trans hu3) (fun hn _ hv _ => hV hn ((hu.trans hu2).le.v i hv))
  · next h => exact h2 K1 hu (fun _ hr _ hA => h (hc i hr hA))

theorem w_getClonedVec {i : Nat} {k : Option α → Prog α ρ} (hn : ¬ D.nolock) (hf : K.Free)
    (h1 : ∀ K' v, K.Up K' → Safe D mx Q QP (k (some v)) K')
    (h2 : ∀ K', K.Up K' → (i < K.rk → K.V i → ¬ K.A i) → Safe D mx Q QP (k none) K') :
    Safe D mx Q QP ((CVec.getCloned i).bind k) K := by
  simp only [CVec.getCloned, Prog.bind_eq, Prog.bind_assoc]
  refine w_reservedLen fun K1 n hu hA hc => ?_
  split
  · next h =>
    simp only [Prog.bind_eq, Prog.bind_assoc]
    refine w_colGet (fun K2 hu2 hA2 => ?_) (fun hA2 => absurd (hA i h) hA2)
    refine w_clone hA2 hn (hf.up (hu.trans hu2)) (fun K3 v hu3 hV => h1 K3 v ((hu.trans hu2).trans hu3)) (fun hV K3 hu3 => ?_)
    exact h2 K3 ((hu.trans hu2).trans hu3) (fun _ hv _ => hV ((hu.trans hu2).le.v i hv))
  · next h => exact h2 K1 hu (fun hr _ hA => h (hc i hr hA))

theorem elems_of_lt {K : Know} {n : Nat} (hf : K.Free) (h : ∀ i, i < n → K.V i ∧ K.A i) : K.Elems (positions 0 n) := by
  refine ⟨hf, fun i hi => ?_⟩
  rw [List.mem_range'_1] at hi
  exact h i (by omega)

/-- Facts about `len` in the form of `Done.len`. -/
theorem Done.reports {op : Op α β} {K0 K : Know} {x : Ret α β} {n : Nat} (hu : K0.Up K) (l : K0.Free)
    (el : ∀ i ∈ x.elements, i < n) (pt : x.pointers = []) (hr : ∀ n', op.ReportsLen n' x → n' = n)
    (hp : op = .len ∨ op = .iter ∨ op = .asSlice) (h1 : K0.wn ≤ n) (h2 : n ≤ K.wn) (h3 : ∀ i, i < n → K.V i ∧ K.A i)
    (h4 : D.nolock → ∀ k, k ≤ K0.rk → (∀ i, i < k → K0.V i ∧ K0.A i) → k ≤ n) : Done D op K0 K x := by
  refine ⟨hu.le, (l.up hu).l, (l.up hu).own, fun i hi => h3 i (el i hi), fun i hi => Nat.lt_of_lt_of_le (el i hi) h2,
    by simp [pt], ?_, ?_, ?_, ?_, ?_, ?_, ?_, fun hi => by rcases hp with h | h | h <;> rw [h] at hi <;> cases hi⟩
  · intro n hn; rcases hp with h | h | h <;> subst h <;> cases hn
  · intro n' hn
    rw [hr n' hn]
    exact ⟨h1, h2, h3, h4⟩
  · intro i hi; rcases hp with h | h | h <;> rw [h] at hi <;> cases hi
  · intro i hi; rcases hp with h | h | h <;> rw [h] at hi <;> cases hi
  · intro o i hi; rcases hp with h | h | h <;> rw [h] at hi <;> cases hi
  · intro m i j hi; subst hi; rcases hp with h | h | h <;> cases h
  · intro m s i j hi; subst hi; rcases hp with h | h | h <;> cases h

macro "norm" : tactic => `(tactic| simp only [Op.prog, Prog.map_eq, Prog.bind_eq, Prog.bind_assoc, Prog.pure_eq, Prog.ret_bind])

theorem op_safe {op : Op α β} (ha : Allowed D op) (hs : Started D op K) :
    Safe D mx (Done D op K) (Failed D mx op K) op.prog K := by
  have hL : K.Free := ⟨hs.l, hs.r⟩
  have hel : ∀ i ∈ op.needs, (K.V i ∧ K.A i) ∧ i < K.wn := fun i hi => ⟨hs.el i hi, hs.cn i hi⟩
  have hup : ∀ {K1 : Know} {i : Nat}, K.Up K1 → ((K.V i ∧ K.A i) ∧ i < K.wn) → (K1.V i ∧ K1.A i) ∧ i < K1.wn :=
    fun hu h => ⟨⟨hu.le.v _ h.1.1, hu.le.a _ h.1.2⟩, Nat.lt_of_lt_of_le h.2 hu.le.wn⟩
  cases op with
  | push v => exact w_growth ⟨_, rfl⟩ hs
  | pushForIdx f => exact w_growth ⟨_, rfl⟩ hs
  | extend it => exact w_growth ⟨_, rfl⟩ hs
  | extendN items n => exact w_growth ⟨_, rfl⟩ hs
  | extendForIdx f n => exact w_growth ⟨_, rfl⟩ hs
  | len =>
    norm
    refine w_len fun K1 n hu h1 h2 h3 h4 => ?_
    exact Done.reports hu hL (by simp [Ret.elements]) rfl (fun n' h => by cases h; rfl) (by simp) h1 h2 h3 h4
  | isEmpty =>
    norm; simp only [CVec.isEmpty]; norm
    exact w_len fun K1 n hu h1 h2 h3 h4 => Done.value rfl hu hL rfl rfl
  | capacity =>
    norm
    refine w_capLoad fun K1 n hu h1 h2 _ => ?_
    refine ⟨hu.le, (hL.up hu).l, (hL.up hu).own, by simp [Ret.elements], by simp [Ret.elements], by simp [Ret.pointers], ?_, ?_, ?_, ?_, ?_, ?_, ?_, ?_⟩
    · intro n hn; cases hn
    · intro n hn; exact hn.elim
    · intro i hi; cases hi
    · intro i hi; cases hi
    · intro o i hi; cases hi
    · intro m i j hi; cases hi
    · intro m s i j hi; cases hi
    · intro _; exact ⟨n, rfl, h1, h2⟩
  | maximumCapacity =>
    norm
    exact w_maxCap (Done.value rfl (.refl K) hL rfl rfl)
  | get i =>
    norm
    refine w_get (fun K1 hu hV hA hw => ?_) (fun K1 hu hw hc => ?_)
    · refine ⟨hu.le, (hL.up hu).l, (hL.up hu).own, by simp [Ret.elements, hV, hA], by simp [Ret.elements, hw], by simp [Ret.pointers], ?_, ?_, ?_, ?_, ?_, ?_, ?_, fun hi => by cases hi⟩
      · intro n hn; cases hn
      · intro n hn; exact hn.elim
      · intro i hi; cases hi; exact .inl rfl
      · intro i hi; cases hi
      · intro o i hi; cases hi
      · intro m i j hi; cases hi
      · intro m s i j hi; cases hi
    · refine ⟨hu.le, (hL.up hu).l, (hL.up hu).own, by simp [Ret.elements], by simp [Ret.elements], by simp [Ret.pointers], ?_, ?_, ?_, ?_, ?_, ?_, ?_, fun hi => by cases hi⟩
      · intro n hn; cases hn
      · intro n hn; exact hn.elim
      · intro i hi; cases hi; exact .inr ⟨rfl, hw, hc⟩
      · intro i hi; cases hi
      · intro o i hi; cases hi
      · intro m i j hi; cases hi
      · intro m s i j hi; cases hi
  | index i =>
    norm
    refine w_index (fun K1 hu hV hA hw => ?_) (fun K1 hu hw => ?_)
    · exact Done.plain rfl hu.le (hL.up hu) (by simp [Ret.elements, hV, hA, hw]) (by simp [Ret.pointers])
    · exact ⟨hu.le, (hL.up hu).l, .inl ⟨by decide, (hL.up hu).own⟩, trivial, fun j h => by cases h; exact hw, fun j h => by cases h⟩
  | getCloned i =>
    have hn : ¬ D.nolock := fun h => ha.nolock h trivial
    norm
    refine w_getClonedVec hn hL (fun K1 v hu => ?_) (fun K1 hu hc => ?_)
    · refine ⟨hu.le, (hL.up hu).l, (hL.up hu).own, by simp [Ret.elements], by simp [Ret.elements], by simp [Ret.pointers], ?_, ?_, ?_, ?_, ?_, ?_, ?_, fun hi => by cases hi⟩
      · intro n hn; cases hn
      · intro n hn; exact hn.elim
      · intro i hi; cases hi
      · intro i hi _ _ _; exact ⟨v, rfl⟩
      · intro o i hi; cases hi
      · intro m i j hi; cases hi
      · intro m s i j hi; cases hi
    · refine ⟨hu.le, (hL.up hu).l, (hL.up hu).own, by simp [Ret.elements], by simp [Ret.elements], by simp [Ret.pointers], ?_, ?_, ?_, ?_, ?_, ?_, ?_, fun hi => by cases hi⟩
      · intro n hn; cases hn
      · intro n hn; exact hn.elim
      · intro i hi; cases hi
      · intro i hi h1 h2 h3; cases hi; exact absurd h3 (hc h1 h2)
      · intro o i hi; cases hi
      · intro m i j hi; cases hi
      · intro m s i j hi; cases hi
  | iter =>
    norm
    refine w_iter fun K1 n hu h1 h2 h3 h4 => ?_
    refine Done.reports (n := n) hu hL ?_ rfl ?_ (by simp) h1 h2 h3 h4
    · intro i hi
      have := List.mem_range'_1.1 hi
      omega
    · intro n' h
      have h : Ret.elems (positions 0 n) = Ret.elems (List.range n') := h
      have h := congrArg (fun l => match l with | Ret.elems l => l.length | _ => 0) h
      simpa using h.symm
  | iterCloned =>
    have hn : ¬ D.nolock := fun h => ha.nolock h trivial
    norm; simp only [CVec.iterCloned]; norm
    refine w_iter fun K1 n hu h1 h2 h3 h4 => ?_
    exact w_loopCloned hn (elems_of_lt (hL.up hu) h3) fun K2 r hu2 => Done.value rfl (hu.trans hu2) hL rfl rfl
  | map f =>
    have hn : ¬ D.nolock := fun h => ha.nolock h trivial
    norm; simp only [CVec.map]; norm
    refine w_iter fun K1 n hu h1 h2 h3 h4 => ?_
    exact w_loopMap hn (elems_of_lt (hL.up hu) h3) (fun hf K2 hu2 => Failed.plain (hu.trans hu2) hL hf (by simp) (by simp))
      fun K2 r hu2 => Done.value rfl (hu.trans hu2) hL rfl rfl
  | filter f =>
    have hn : ¬ D.nolock := fun h => ha.nolock h trivial
    norm; simp only [CVec.filter]; norm
    refine w_iter fun K1 n hu h1 h2 h3 h4 => ?_
    refine w_loopFilter hn (elems_of_lt (hL.up hu) h3) (fun hf K2 hu2 => Failed.plain (hu.trans hu2) hL hf (by simp) (by simp))
      fun K2 r hu2 hr => Done.plain rfl (hu.trans hu2).le (hL.up (hu.trans hu2)) ?_ (by simp [Ret.pointers])
    refine fun i hi => ⟨((elems_of_lt (hL.up hu) h3).up hu2).el i (hr i hi), ?_⟩
    have := List.mem_range'_1.1 (hr i hi)
    have := hu2.le.wn
    omega
  | fold f b =>
    have hn : ¬ D.nolock := fun h => ha.nolock h trivial
    norm; simp only [CVec.fold]; norm
    refine w_iter fun K1 n hu h1 h2 h3 h4 => ?_
    exact w_loopFold hn (elems_of_lt (hL.up hu) h3) (fun hf K2 hu2 => Failed.plain (hu.trans hu2) hL hf (by simp) (by simp))
      fun K2 r hu2 => Done.value rfl (hu.trans hu2) hL rfl rfl
  | visit f b =>
    have hn : ¬ D.nolock := fun h => ha.nolock h trivial
    norm; simp only [CVec.visit]; norm
    refine w_iter fun K1 n hu h1 h2 h3 h4 => ?_
    exact w_loopVisit hn (elems_of_lt (hL.up hu) h3) (fun hf K2 hu2 => Failed.plain (hu.trans hu2) hL hf (by simp) (by simp))
      fun K2 r hu2 => Done.value rfl (hu.trans hu2) hL rfl rfl
  | reduce f =>
    have hn : ¬ D.nolock := fun h => ha.nolock h trivial
    norm; simp only [CVec.reduce]; norm
    refine w_asSlice fun K1 n hu h1 h2 h3 h4 => ?_
    exact w_loopReduce hn (elems_of_lt (hL.up hu) h3) (fun hf K2 hu2 => Failed.plain (hu.trans hu2) hL hf (by simp) (by simp))
      fun K2 r hu2 => Done.value rfl (hu.trans hu2) hL rfl rfl
  | indexOf veq v =>
    have hn : ¬ D.nolock := fun h => ha.nolock h trivial
    norm; simp only [CVec.indexOf]; norm
    refine w_iter fun K1 n hu h1 h2 h3 h4 => ?_
    exact w_loopPosition hn (elems_of_lt (hL.up hu) h3) fun K2 r hu2 => Done.value rfl (hu.trans hu2) hL rfl rfl
  | contains veq v =>
    have hn : ¬ D.nolock := fun h => ha.nolock h trivial
    norm; simp only [CVec.contains, CVec.indexOf]; norm
    refine w_iter fun K1 n hu h1 h2 h3 h4 => ?_
    exact w_loopPosition hn (elems_of_lt (hL.up hu) h3) fun K2 r hu2 => Done.value rfl (hu.trans hu2) hL rfl rfl
  | cloneToVec =>
    have hn : ¬ D.nolock := fun h => ha.nolock h trivial
    norm; simp only [CVec.cloneToVec]; norm
    refine w_asSlice fun K1 n hu h1 h2 h3 h4 => ?_
    exact w_loopCloned hn (elems_of_lt (hL.up hu) h3) fun K2 r hu2 => Done.value rfl (hu.trans hu2) hL rfl rfl
  | eqList veq vs =>
    have hn : ¬ D.nolock := fun h => ha.nolock h trivial
    norm; simp only [CVec.eqList]; norm
    refine w_iter fun K1 n hu h1 h2 h3 h4 => ?_
    exact w_loopEqList hn (hL.up hu) (fun i hi => ((elems_of_lt (hL.up hu) h3).el i hi).2)
      (fun hf K2 hu2 => Failed.plain (hu.trans hu2) hL hf (by simp) (by simp)) fun K2 r hu2 => Done.value rfl (hu.trans hu2) hL rfl rfl
  | debug sh =>
    have hn : ¬ D.nolock := fun h => ha.nolock h trivial
    norm; simp only [CVec.debug]; norm
    refine w_iter fun K1 n hu h1 h2 h3 h4 => ?_
    exact w_loopDebug hn (elems_of_lt (hL.up hu) h3) fun K2 r hu2 => Done.value rfl (hu.trans hu2) hL rfl rfl
  | slice r =>
    norm
    exact w_slice fun K1 s n hu _ _ _ h3 _ => Done.plain rfl hu.le (hL.up hu) h3 (by simp [Ret.pointers])
  | asSlice =>
    norm
    refine w_asSlice fun K1 n hu h1 h2 h3 h4 => ?_
    refine Done.reports (n := n) hu hL ?_ rfl (fun n' h => by cases h; rfl) (by simp) h1 h2 h3 h4
    intro i hi
    have := List.mem_range'_1.1 hi
    dsimp only at this
    omega
  | splitAt mid =>
    norm; simp only [CVec.splitAt]; norm
    refine w_len fun K1 n hu h1 h2 h3 h4 => ?_
    split
    · norm
      refine w_slice fun K2 s _ hu2 _ _ _ h5 _ => ?_
      refine w_slice fun K3 t _ hu3 _ _ _ h6 _ => ?_
      refine Done.plain rfl (hu.trans (hu2.trans hu3)).le (hL.up (hu.trans (hu2.trans hu3))) ?_ (by simp [Ret.pointers])
      intro i hi
      rcases List.mem_append.1 hi with h | h
      · exact ⟨⟨hu3.le.v i (h5 i h).1.1, hu3.le.a i (h5 i h).1.2⟩, Nat.lt_of_lt_of_le (h5 i h).2 hu3.le.wn⟩
      · exact h6 i h
    · next h =>
      exact ⟨hu.le, (hL.up hu).l, .inl ⟨by decide, (hL.up hu).own⟩, trivial, fun j h => (by cases h), fun j h => (by cases h; omega)⟩
  | splitFirst =>
    norm; simp only [CVec.splitFirst]; norm
    refine w_get (fun K1 hu hV hA hw => ?_) (fun K1 hu hw hc => Done.value rfl hu hL rfl rfl)
    norm
    refine w_len fun K2 n hu2 _ _ _ _ => ?_
    refine w_slice fun K3 s _ hu3 _ _ _ h5 _ => ?_
    have hu' := hu.trans (hu2.trans hu3)
    refine Done.plain rfl hu'.le (hL.up hu') ?_ (by simp [Ret.pointers])
    intro i hi
    rcases List.mem_cons.1 hi with h | h
    · subst h; exact ⟨⟨(hu2.trans hu3).le.v _ hV, (hu2.trans hu3).le.a _ hA⟩, Nat.lt_of_lt_of_le hw (hu2.trans hu3).le.wn⟩
    · exact h5 i h
  | splitLast =>
    norm; simp only [CVec.splitLast]; norm
    refine w_len fun K1 n hu h1 h2 h3 _ => ?_
    split
    · exact Done.value rfl hu hL rfl rfl
    · next h0 =>
      norm
      refine w_slice fun K2 s _ hu2 _ _ _ h5 _ => ?_
      refine w_index (fun K3 hu3 hV hA hw => ?_) (fun K3 hu3 hw => ?_)
      · have hu' := hu.trans (hu2.trans hu3)
        refine Done.plain rfl hu'.le (hL.up hu') ?_ (by simp [Ret.pointers])
        intro i hi
        rcases List.mem_cons.1 hi with h | h
        · subst h; exact ⟨⟨hV, hA⟩, hw⟩
        · exact ⟨⟨hu3.le.v i (h5 i h).1.1, hu3.le.a i (h5 i h).1.2⟩, Nat.lt_of_lt_of_le (h5 i h).2 hu3.le.wn⟩
      · have := hu2.le.wn
        omega
  | chunks k =>
    norm; simp only [CVec.chunks]; norm
    split
    · norm
      refine w_len fun K1 n hu h1 h2 h3 _ => ?_
      exact w_chunkLoop fun K2 ss hu2 hss => Done.plain rfl (hu.trans hu2).le (hL.up (hu.trans hu2)) hss
        (by simp [Ret.pointers])
    · exact Failed.plain (.refl K) hL (show _ = _ by omega) (by simp) (by simp)
  | getRaw o i =>
    norm
    refine w_getRawVec (fun K1 hu hV hA hP => ?_) (fun K1 hu hc => ?_)
    · refine ⟨hu.le, (hL.up hu).l, (hL.up hu).own, by simp [Ret.elements], by simp [Ret.elements], ?_, ?_, ?_, ?_, ?_, ?_, ?_, ?_, fun hi => by cases hi⟩
      · intro j hj
        have : j = i := by simpa [Ret.pointers] using hj
        subst this
        exact ⟨hV, hA, fun hd => hP ((ha.deref _ hd).2 rfl)⟩
      · intro n hn; cases hn
      · intro n hn; exact hn.elim
      · intro i hi; cases hi
      · intro i hi; cases hi
      · intro o i hi _ _ _ _; cases hi; rfl
      · intro m i j hi; cases hi
      · intro m s i j hi; cases hi
    · refine ⟨hu.le, (hL.up hu).l, (hL.up hu).own, by simp [Ret.elements], by simp [Ret.elements], by simp [Ret.pointers], ?_, ?_, ?_, ?_, ?_, ?_, ?_, fun hi => by cases hi⟩
      · intro n hn; cases hn
      · intro n hn; exact hn.elim
      · intro i hi; cases hi
      · intro i hi; cases hi
      · intro o i hi hn h1 h2 h3; cases hi; exact absurd h3 (hc hn h1 h2)
      · intro m i j hi; cases hi
      · intro m s i j hi; cases hi
  | iterRef o =>
    norm; simp only [CVec.iterRef]; norm
    refine w_reservedLen fun K1 n hu hA _ => ?_
    refine w_rawRefs (fun i hi => hA i (by have := List.mem_range'_1.1 hi; omega)) fun K2 ps hu2 hps => ?_
    exact Done.plain rfl (hu.trans hu2).le (hL.up (hu.trans hu2)) (by simp [Ret.elements])
      (fun i hi => ⟨(hps i hi).1, (hps i hi).2.1, fun hd => (hps i hi).2.2 (ha.deref _ hd).2⟩)
  | swap m i j =>
    have hn : ¬ D.nolock := fun h => ha.nolock h trivial
    have hd : ¬ D.deref i ∧ ¬ D.deref j := ⟨fun h => (ha.deref i h).1 (.inl rfl), fun h => (ha.deref j h).1 (.inr rfl)⟩
    norm
    refine w_swap hn hd hL (fun hm => by subst hm; exact ha.nest _ _ ⟨rfl, rfl⟩) fun K1 b hu hb => ?_
    refine ⟨hu.le, (hL.up hu).l, (hL.up hu).own, by simp [Ret.elements], by simp [Ret.elements], by simp [Ret.pointers],
      ?_, ?_, ?_, ?_, ?_, ?_, ?_, fun hi => by cases hi⟩
    · intro n hn; cases hn
    · intro n hn; exact hn.elim
    · intro i hi; cases hi
    · intro i hi; cases hi
    · intro o i hi; cases hi
    · intro m i j hi; cases hi; exact hb.imp (fun h => ⟨congrArg _ h.1, h.2⟩) (fun h => ⟨congrArg _ h.1, h.2⟩)
    · intro m s i j hi; cases hi
  | fill v =>
    have hn : ¬ D.nolock := fun h => ha.nolock h trivial
    have hd : ∀ i, ¬ D.deref i := fun i h => (ha.deref i h).1 trivial
    norm; simp only [CVec.fill]; norm
    refine w_iter fun K1 n hu h1 h2 h3 h4 => ?_
    exact w_loopFill hn (fun i _ => hd i) (elems_of_lt (hL.up hu) h3) fun K2 hu2 => Done.value rfl (hu.trans hu2) hL rfl rfl
  | fillWith f =>
    have hn : ¬ D.nolock := fun h => ha.nolock h trivial
    have hd : ∀ i, ¬ D.deref i := fun i h => (ha.deref i h).1 trivial
    norm; simp only [CVec.fillWith]; norm
    refine w_iter fun K1 n hu h1 h2 h3 h4 => ?_
    exact w_loopFillWith hn (fun i _ => hd i) (elems_of_lt (hL.up hu) h3) (fun hf K2 hu2 => Failed.plain (hu.trans hu2) hL hf (by simp) (by simp))
      fun K2 hu2 => Done.value rfl (hu.trans hu2) hL rfl rfl
  | elCloned e =>
    have hn : ¬ D.nolock := fun h => ha.nolock h trivial
    have he := hs.el e (by simp [Op.needs])
    norm
    exact w_elCloned he.2 he.1 hn hL fun K1 v hu => Done.value rfl hu hL rfl rfl
  | elMap f e =>
    have hn : ¬ D.nolock := fun h => ha.nolock h trivial
    have he := hs.el e (by simp [Op.needs])
    norm
    exact w_elMap he.2 he.1 hn hL (fun hf K1 hu => Failed.plain hu hL hf (by simp) (by simp))
      fun K1 v hu => Done.value rfl hu hL rfl rfl
  | elReplace e v =>
    have hn : ¬ D.nolock := fun h => ha.nolock h trivial
    have hd : ¬ D.deref e := fun h => (ha.deref e h).1 rfl
    have he := hs.el e (by simp [Op.needs])
    norm
    exact w_elReplace he.2 he.1 hn hL hd fun K1 v hu => Done.value rfl hu hL rfl rfl
  | elSet e v =>
    have hn : ¬ D.nolock := fun h => ha.nolock h trivial
    have hd : ¬ D.deref e := fun h => (ha.deref e h).1 rfl
    have he := hs.el e (by simp [Op.needs])
    norm
    exact w_elSet he.2 he.1 hn hL hd fun K1 hu => Done.value rfl hu hL rfl rfl
  | elUpdate f e =>
    have hn : ¬ D.nolock := fun h => ha.nolock h trivial
    have hd : ¬ D.deref e := fun h => (ha.deref e h).1 rfl
    have he := hs.el e (by simp [Op.needs])
    norm
    exact w_elUpdate he.2 he.1 hn hL hd (fun hf K1 hu => Failed.plain hu hL hf (by simp) (by simp))
      fun K1 hu => Done.value rfl hu hL rfl rfl
  | elEq veq v e =>
    have hn : ¬ D.nolock := fun h => ha.nolock h trivial
    have he := hs.el e (by simp [Op.needs])
    norm; simp only [Elem.eqVal]
    exact w_elMap he.2 he.1 hn hL (fun ⟨_, h⟩ => by cases h) fun K1 v hu => Done.value rfl hu hL rfl rfl
  | slLen s => exact Done.value rfl (.refl K) hL rfl rfl
  | slIsEmpty s => exact Done.value rfl (.refl K) hL rfl rfl
  | slGet s i =>
    have he : ∀ i ∈ positions s.a s.len, K.V i ∧ K.A i := hs.el
    norm
    refine w_slGet he (fun K1 hu hV hA hi => ?_) (fun _ => Done.value rfl (.refl K) hL rfl rfl)
    have hw := (hup hu (hel (s.a + i) (List.mem_range'_1.2 ⟨by omega, by omega⟩))).2
    exact Done.plain rfl hu.le (hL.up hu) (by simp [Ret.elements, hV, hA, hw]) (by simp [Ret.pointers])
  | slIndex s i =>
    have he : ∀ i ∈ positions s.a s.len, K.V i ∧ K.A i := hs.el
    norm
    refine w_slIndex he (fun K1 hu hV hA hi => ?_) (fun h => Failed.plain (.refl K) hL h (by simp) (by simp))
    have hw := (hup hu (hel (s.a + i) (List.mem_range'_1.2 ⟨by omega, by omega⟩))).2
    exact Done.plain rfl hu.le (hL.up hu) (by simp [Ret.elements, hV, hA, hw]) (by simp [Ret.pointers])
  | slGetCloned s i =>
    have hn : ¬ D.nolock := fun h => ha.nolock h trivial
    have he : ∀ i ∈ positions s.a s.len, K.V i ∧ K.A i := hs.el
    norm; simp only [Slc.getCloned]
    split
    · next h =>
      norm
      have hm := he (s.a + i) (List.mem_range'_1.2 ⟨by omega, by omega⟩)
      refine w_colGet (fun K1 hu hA => ?_) (fun hA => absurd hm.2 hA)
      norm
      exact w_elCloned hA (hu.le.v _ hm.1) hn (hL.up hu) fun K2 v hu2 => Done.value rfl (hu.trans hu2) hL rfl rfl
    · exact Done.value rfl (.refl K) hL rfl rfl
  | slIter s =>
    exact Done.plain rfl (.refl K) hL hel (by simp [Ret.pointers])
  | slIterCloned s =>
    have hn : ¬ D.nolock := fun h => ha.nolock h trivial
    norm; simp only [Slc.iterCloned]
    exact w_loopCloned hn ⟨hL, hs.el⟩ fun K2 r hu2 => Done.value rfl hu2 hL rfl rfl
  | slMap s f =>
    have hn : ¬ D.nolock := fun h => ha.nolock h trivial
    norm; simp only [Slc.map]
    exact w_loopMap hn ⟨hL, hs.el⟩ (fun hf K2 hu2 => Failed.plain hu2 hL hf (by simp) (by simp))
      fun K2 r hu2 => Done.value rfl hu2 hL rfl rfl
  | slFilter s f =>
    have hn : ¬ D.nolock := fun h => ha.nolock h trivial
    norm; simp only [Slc.filter]
    refine w_loopFilter hn ⟨hL, hs.el⟩ (fun hf K2 hu2 => Failed.plain hu2 hL hf (by simp) (by simp))
      fun K2 r hu2 hr => Done.plain rfl hu2.le (hL.up hu2) ?_ (by simp [Ret.pointers])
    exact fun i hi => hup hu2 (hel i (hr i hi))
  | slFold s f b =>
    have hn : ¬ D.nolock := fun h => ha.nolock h trivial
    norm; simp only [Slc.fold]
    exact w_loopFold hn ⟨hL, hs.el⟩ (fun hf K2 hu2 => Failed.plain hu2 hL hf (by simp) (by simp))
      fun K2 r hu2 => Done.value rfl hu2 hL rfl rfl
  | slVisit s f b =>
    have hn : ¬ D.nolock := fun h => ha.nolock h trivial
    norm; simp only [Slc.visit]
    exact w_loopVisit hn ⟨hL, hs.el⟩ (fun hf K2 hu2 => Failed.plain hu2 hL hf (by simp) (by simp))
      fun K2 r hu2 => Done.value rfl hu2 hL rfl rfl
  | slReduce s f =>
    have hn : ¬ D.nolock := fun h => ha.nolock h trivial
    norm; simp only [Slc.reduce]
    exact w_loopReduce hn ⟨hL, hs.el⟩ (fun hf K2 hu2 => Failed.plain hu2 hL hf (by simp) (by simp))
      fun K2 r hu2 => Done.value rfl hu2 hL rfl rfl
  | slIndexOf s veq v =>
    have hn : ¬ D.nolock := fun h => ha.nolock h trivial
    norm; simp only [Slc.indexOf]
    exact w_loopPosition hn ⟨hL, hs.el⟩ fun K2 r hu2 => Done.value rfl hu2 hL rfl rfl
  | slContains s veq v =>
    have hn : ¬ D.nolock := fun h => ha.nolock h trivial
    norm; simp only [Slc.contains, Slc.indexOf]; norm
    exact w_loopPosition hn ⟨hL, hs.el⟩ fun K2 r hu2 => Done.value rfl hu2 hL rfl rfl
  | slEqList s veq vs =>
    have hn : ¬ D.nolock := fun h => ha.nolock h trivial
    norm; simp only [Slc.eqList]
    exact w_loopEqList hn hL (fun i hi => (hs.el i hi).2) (fun hf K2 hu2 => Failed.plain hu2 hL hf (by simp) (by simp)) fun K2 r hu2 => Done.value rfl hu2 hL rfl rfl
  | slDebug s sh =>
    have hn : ¬ D.nolock := fun h => ha.nolock h trivial
    norm; simp only [Slc.debug]
    exact w_loopDebug hn ⟨hL, hs.el⟩ fun K2 r hu2 => Done.value rfl hu2 hL rfl rfl
  | slSlice s r =>
    exact Done.plain rfl (.refl K) hL (elements_slice hel) (by simp [Ret.pointers])
  | slSplitAt s mid =>
    norm; simp only [Slc.splitAt]
    split
    · refine Done.plain rfl (.refl K) hL ?_ (by simp [Ret.pointers])
      intro i hi
      rcases List.mem_append.1 hi with h | h
      · exact elements_slice (s := s) hel i h
      · exact elements_slice (s := s) hel i h
    · exact Failed.plain (.refl K) hL (show _ < _ by omega) (by simp) (by simp)
  | slSplitFirst s =>
    norm; simp only [Slc.splitFirst]; norm
    refine w_slGet hs.el (fun K1 hu hV hA hi0 => ?_) (fun _ => Done.value rfl (.refl K) hL rfl rfl)
    refine Done.plain rfl hu.le (hL.up hu) ?_ (by simp [Ret.pointers])
    intro i hi
    rcases List.mem_cons.1 hi with h | h
    · subst h; exact hup hu (hel _ (List.mem_range'_1.2 ⟨by omega, by omega⟩))
    · exact hup hu (elements_slice (s := s) hel i h)
  | slSplitLast s =>
    norm; simp only [Slc.splitLast]
    split
    · exact Done.value rfl (.refl K) hL rfl rfl
    · next h0 =>
      norm
      refine w_slIndex hs.el (fun K1 hu hV hA hi0 => ?_) (fun h => by omega)
      refine Done.plain rfl hu.le (hL.up hu) ?_ (by simp [Ret.pointers])
      intro i hi
      rcases List.mem_cons.1 hi with h | h
      · subst h; exact hup hu (hel _ (List.mem_range'_1.2 ⟨by omega, by omega⟩))
      · exact hup hu (elements_slice (s := s) hel i h)
  | slChunks s k =>
    norm; simp only [Slc.chunks]
    split
    · refine Done.plain rfl (.refl K) hL ?_ (by simp [Ret.pointers])
      intro i hi
      obtain ⟨t, ht, hi⟩ := List.mem_flatMap.1 hi
      obtain ⟨j, _, rfl⟩ := List.mem_map.1 ht
      exact elements_slice (s := s) hel i hi
    · exact Failed.plain (.refl K) hL (show _ = _ by omega) (by simp) (by simp)
  | slGetRaw s o i =>
    norm; simp only [Slc.getRaw]
    split
    · next i' h' =>
      have hi : s.a + i = i' := by
        simp only [Slc.idx] at h'
        split at h' <;> cases h'
        rfl
      refine w_getRawVec (fun K1 hu hV hA hP => ?_) (fun K1 hu hc => Done.value rfl hu hL rfl rfl)
      refine Done.plain rfl hu.le (hL.up hu) (by simp [Ret.elements]) (fun j hj => ?_)
      simp only [Ret.pointers, Option.toList_some, List.mem_singleton] at hj
      subst hj
      exact ⟨hV, hA, fun hd => hP ((ha.deref _ hd).2 hi)⟩
    · exact Done.value rfl (.refl K) hL rfl rfl
  | slIterRef s o =>
    norm; simp only [Slc.iterRef]
    refine w_rawRefs (fun i hi => (hs.el i hi).2) fun K2 ps hu2 hps => ?_
    exact Done.plain rfl hu2.le (hL.up hu2) (by simp [Ret.elements])
      (fun i hi => ⟨(hps i hi).1, (hps i hi).2.1, fun hd => (hps i hi).2.2 (ha.deref _ hd).2⟩)
  | slSwap m s i j =>
    have hn : ¬ D.nolock := fun h => ha.nolock h trivial
    have hd : ¬ D.deref (s.a + i) ∧ ¬ D.deref (s.a + j) :=
      ⟨fun h => (ha.deref _ h).1 (.inl rfl), fun h => (ha.deref _ h).1 (.inr rfl)⟩
    norm; simp only [Slc.swap]
    split
    · next h1 h2 =>
      simp only [Slc.idx] at h1 h2
      split at h1 <;> cases h1
      split at h2 <;> cases h2
      refine w_swap hn hd hL (fun hm => by subst hm; exact ha.nest _ _ ⟨rfl, rfl⟩) fun K1 b hu hb => ?_
      refine ⟨hu.le, (hL.up hu).l, (hL.up hu).own, by simp [Ret.elements], by simp [Ret.elements], by simp [Ret.pointers],
        ?_, ?_, ?_, ?_, ?_, ?_, ?_, fun hi => by cases hi⟩
      · intro n hn; cases hn
      · intro n hn; exact hn.elim
      · intro i hi; cases hi
      · intro i hi; cases hi
      · intro o i hi; cases hi
      · intro m i j hi; cases hi
      · intro m s i j hi; cases hi
        refine hb.imp (fun h => ⟨congrArg _ h.1, by omega, by omega, fun he => h.2 (by rw [he])⟩) (fun h => ⟨congrArg _ h.1, fun hm => ?_⟩)
        rcases h.2 hm with h | h
        · exact absurd (hs.cn (s.a + i) (List.mem_range'_1.2 ⟨by omega, by omega⟩)) (Nat.not_lt_of_le h)
        · exact absurd (hs.cn (s.a + j) (List.mem_range'_1.2 ⟨by omega, by omega⟩)) (Nat.not_lt_of_le h)
    · next hidx =>
      refine ⟨(Know.Up.refl K).le, hL.l, hL.own, by simp [Ret.elements], by simp [Ret.elements], by simp [Ret.pointers],
        ?_, ?_, ?_, ?_, ?_, ?_, ?_, fun hi => by cases hi⟩
      · intro n hn; cases hn
      · intro n hn; exact hn.elim
      · intro i hi; cases hi
      · intro i hi; cases hi
      · intro o i hi; cases hi
      · intro m i j hi; cases hi
      · intro m s i j hi; cases hi
        refine .inr ⟨rfl, fun _ => ?_⟩
        by_cases h1 : i < s.len
        · by_cases h2 : j < s.len
          · exact (hidx _ _ (if_pos h1) (if_pos h2)).elim
          · exact .inr (by omega)
        · exact .inl (by omega)
  | slFill s v =>
    have hn : ¬ D.nolock := fun h => ha.nolock h trivial
    norm; simp only [Slc.fill]
    have hd : ∀ i ∈ positions s.a s.len, ¬ D.deref i := fun i hi h => (ha.deref i h).1 (List.mem_range'_1.1 hi)
    exact w_loopFill hn hd ⟨hL, hs.el⟩ fun K2 hu2 => Done.value rfl hu2 hL rfl rfl
  | slFillWith s f =>
    have hn : ¬ D.nolock := fun h => ha.nolock h trivial
    norm; simp only [Slc.fillWith]
    have hd : ∀ i ∈ positions s.a s.len, ¬ D.deref i := fun i hi h => (ha.deref i h).1 (List.mem_range'_1.1 hi)
    exact w_loopFillWith hn hd ⟨hL, hs.el⟩ (fun hf K2 hu2 => Failed.plain hu2 hL hf (by simp) (by simp))
        fun K2 hu2 => Done.value rfl hu2 hL rfl rfl
  | deref e =>
    have hd : D.deref e := ha.noderef e rfl
    have he := hs.pt e (by simp [Op.needsPtr])
    norm
    exact w_act (a := .valRead e) ⟨he.2.1, .inr ⟨hd, he.2.2 hd⟩⟩ fun v _ => Done.value rfl (.refl K) hL rfl rfl

end Verif.Weak
