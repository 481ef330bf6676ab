import Verif.Weak.Know
import Verif.Proof.Post

/-!
# Accesses to values by the programs under weak memory

Helper file (no property statements): which data events a program performs, whatever the loads of the counters, of the
capacity and of the state bytes return.
-/

set_option linter.unusedSimpArgs false

namespace Verif.Weak

variable {α β ρ ρ' : Type}

/-- What a call has seen. -/
structure Kn where
  /-- positions whose state `NONE` cannot be seen any more -/
  v : Nat → Prop
  /-- positions whose storage the call knows of -/
  a : Nat → Prop
  /-- a smaller `len_written` cannot be seen any more -/
  wn : Nat

structure Kn.Le (x y : Kn) : Prop where
  v : ∀ i, x.v i → y.v i
  a : ∀ i, x.a i → y.a i
  wn : x.wn ≤ y.wn

theorem Kn.Le.refl (a : Kn) : a.Le a := ⟨fun _ h => h, fun _ h => h, Nat.le_refl _⟩

theorem Kn.Le.trans {a b c : Kn} (h : a.Le b) (h' : b.Le c) : a.Le c :=
  ⟨fun i x => h'.v i (h.v i x), fun i x => h'.a i (h.a i x), Nat.le_trans h.wn h'.wn⟩

/-- What a call has done to the values. -/
structure DS (α : Type) where
  /-- data events performed so far -/
  d : List (Ev α)
  /-- positions whose handle is held, with the value if it is known -/
  held : Nat → Option (Option α)
  V : Kn

/-- A call without handles. -/
abbrev free (d : List (Ev α)) (V : Kn) : DS α := ⟨d, fun _ => none, V⟩

/-- What an action needs. -/
def DPre (S : DS α) : Act α → Prop
  | .valWrite i _ => S.held i = none → ∀ c v, Ev.publish c i v ∉ S.d
  | _ => True

/-- Possible responses. -/
def DCan (S : DS α) : (a : Act α) → a.Resp → Prop
  | .stCas i _ _ _ _, (r : Option CState) =>
      match r with
      | none => S.held i = none
      | some s => s ≠ .SOME ∧ (S.V.v i → s ≠ .NONE)
  | .writtenLoad _, (b : Nat) => S.V.wn ≤ b
  | .capLoad _, (b : Nat) => ∀ i, S.V.a i → i < b
  | .valRead i, (v : α) => ∀ u, S.held i = some (some u) → v = u
  | _, _ => True

/-- Data events of an action; `g`: the value replaced by a write. -/
def devs (c : Cid) (S : DS α) (g : Option α) : (a : Act α) → a.Resp → List (Ev α)
  | .resFetchAdd n _, (b : Nat) => [.reserve c b n]
  | .valRead i, (v : α) => [.read c i v]
  | .valWrite i v, _ =>
      match S.held i with
      | none => [.publish c i v]
      | some h => [.write c i (h.getD (g.getD v)) v]
  | .valSwap i j, _ => [.swap c i j]
  | _, _ => []

/-- Handles after an action. -/
def dheld (S : DS α) : (a : Act α) → a.Resp → Nat → Option (Option α)
  | .stCas i _ _ _ _, (r : Option CState) =>
      match r with
      | none => upd S.held i (some none)
      | some _ => S.held
  | .stStore i _ _, _ => upd S.held i none
  | .valRead i, (v : α) =>
      match S.held i with
      | none => S.held
      | some _ => upd S.held i (some (some v))
  | .valWrite i v, _ =>
      match S.held i with
      | none => S.held
      | some _ => upd S.held i (some (some v))
  | .valSwap i j, _ => upd (upd S.held i (some none)) j (some none)
  | _, _ => S.held

/-- See `DS.V`. -/
def dV (S : DS α) : (a : Act α) → a.Resp → Kn
  | .writtenLoad o, (b : Nat) => ⟨fun i => S.V.v i ∨ (o.acq = true ∧ i < b), S.V.a, max S.V.wn b⟩
  | .stLoad i _, (s : CState) => ⟨fun j => S.V.v j ∨ (j = i ∧ s ≠ .NONE), S.V.a, S.V.wn⟩
  | .stCas i _ _ _ _, (r : Option CState) =>
      match r with
      | none => ⟨fun j => S.V.v j ∨ j = i, S.V.a, S.V.wn⟩
      | some _ => S.V
  | _, _ => S.V

def dnext (c : Cid) (S : DS α) (g : Option α) (a : Act α) (b : a.Resp) : DS α :=
  ⟨S.d ++ devs c S g a b, dheld S a b, dV S a b⟩

/-- The program of call `c` performs only data events satisfying `A`; `Q`, `QP`: what holds when it returns or panics. -/
def Does (c : Cid) (A : List (Ev α) → Ev α → Prop) (Q : DS α → ρ → Prop) (QP : DS α → PanicKind → Prop) :
    Prog α ρ → DS α → Prop
  | .ret r, S => Q S r
  | .panic k, S => QP S k
  | .step a again k, S => DPre S a ∧ ∀ b g, DCan S a b → again b = false →
      (∀ e ∈ devs c S g a b, A S.d e) ∧ Does c A Q QP (k b) (dnext c S g a b)

variable {c : Cid} {A : List (Ev α) → Ev α → Prop} {Q : DS α → ρ → Prop} {QP : DS α → PanicKind → Prop}
  {S : DS α} {d : List (Ev α)} {V : Kn}

theorem d_act {a : Act α} {k : a.Resp → Prog α ρ} (hp : DPre S a)
    (hk : ∀ b g, DCan S a b → (∀ e ∈ devs c S g a b, A S.d e) ∧ Does c A Q QP (k b) (dnext c S g a b)) :
    Does c A Q QP ((act a).bind k) S := ⟨hp, fun b g hb _ => hk b g hb⟩

theorem d_spin {a : Act α} {stop : a.Resp → Bool} {k : a.Resp → Prog α ρ} (hp : DPre S a)
    (hk : ∀ b g, DCan S a b → stop b = false →
      (∀ e ∈ devs c S g a b, A S.d e) ∧ Does c A Q QP (k b) (dnext c S g a b)) :
    Does c A Q QP ((spin a stop).bind k) S := ⟨hp, hk⟩

/-- Actions without effect on `DS`. -/
def Act.Still : Act α → Prop
  | .resLoad _ | .writtenFetchMax _ _ | .capLoad _ | .maxCapLoad | .growAlloc _ | .growPublish _ => True
  | _ => False

theorem dnext_still {a : Act α} (h : Act.Still a) (b : a.Resp) (g : Option α) :
    DPre S a ∧ devs c S g a b = [] ∧ dnext c S g a b = S := by
  cases a <;> first
    | exact h.elim
    | exact ⟨trivial, rfl, by simp [dnext, devs, dheld, dV]⟩

theorem d_still {a : Act α} {k : a.Resp → Prog α ρ} (h : Act.Still a) (hk : ∀ b, Does c A Q QP (k b) S) :
    Does c A Q QP ((act a).bind k) S := by
  refine d_act (by cases a <;> first | exact h.elim | trivial) fun b g _ => ?_
  obtain ⟨-, h3, h4⟩ := dnext_still (c := c) (S := S) h b g
  rw [h3, h4]
  exact ⟨by simp, hk b⟩

theorem d_spinStill {a : Act α} {stop : a.Resp → Bool} {k : a.Resp → Prog α ρ} (h : Act.Still a)
    (hk : ∀ b, Does c A Q QP (k b) S) : Does c A Q QP ((spin a stop).bind k) S := by
  refine d_spin (by cases a <;> first | exact h.elim | trivial) fun b g _ _ => ?_
  obtain ⟨-, h3, h4⟩ := dnext_still (c := c) (S := S) h b g
  rw [h3, h4]
  exact ⟨by simp, hk b⟩

/-! ## lengths, pointers, storage -/

theorem d_colGet {i : Nat} {k : Option Nat → Prog α ρ} (h1 : Does c A Q QP (k (some i)) S)
    (h2 : ¬ S.V.a i → Does c A Q QP (k none) S) : Does c A Q QP ((Col.get i).bind k) S := by
  simp only [Col.get, Prog.bind_eq, Prog.bind_assoc, Prog.pure_eq, Prog.ret_bind]
  refine d_act trivial fun b g hb => ⟨by simp [devs], ?_⟩
  rw [(dnext_still (c := c) (S := S) (a := .capLoad _) trivial b g).2.2]
  split
  · exact h1
  · next h => exact h2 fun ha => h (hb i ha)

theorem d_settled : ∀ {n lo : Nat} {V : Kn} {k : Nat → Prog α ρ}, (∀ i, i < lo → V.v i) →
    (∀ V' r, V.Le V' → lo ≤ r → (∀ i, i < r → V'.v i) → Does c A Q QP (k r) { S with V := V' }) →
    Does c A Q QP ((CVec.settled lo n).bind k) { S with V := V } := by
  intro n
  induction n with
  | zero => intro lo V k hV hk; exact hk V lo (.refl _) (Nat.le_refl _) hV
  | succ n ih =>
    intro lo V k hV hk
    simp only [CVec.settled, Prog.bind_eq, Prog.bind_assoc]
    refine d_act trivial fun b g _ => ⟨by simp [devs], ?_⟩
    have hS : dnext c { S with V := V } g (.stLoad lo .relaxed) b =
        { S with V := ⟨fun j => V.v j ∨ (j = lo ∧ (show CState from b) ≠ .NONE), V.a, V.wn⟩ } := by
      simp [dnext, devs, dheld, dV]
    rw [hS]
    split
    · next h =>
      refine ih (fun i hi => ?_) (fun V' r h1 h3 h2 => hk V' r ⟨fun i x => h1.v i (.inl x), h1.a, h1.wn⟩ (by omega) h2)
      rcases Nat.lt_or_eq_of_le (Nat.le_of_lt_succ hi) with h' | h'
      · exact .inl (hV i h')
      · exact .inr ⟨h', by rw [h]; decide⟩
    · exact hk _ lo ⟨fun i x => .inl x, fun _ x => x, Nat.le_refl _⟩ (Nat.le_refl _) (fun i hi => .inl (hV i hi))

theorem d_len {k : Nat → Prog α ρ}
    (hk : ∀ V' n, S.V.Le V' → S.V.wn ≤ n → (∀ i, i < n → V'.v i) → Does c A Q QP (k n) { S with V := V' }) :
    Does c A Q QP (CVec.len.bind k) S := by
  simp only [CVec.len, Prog.bind_eq, Prog.bind_assoc]
  refine d_act trivial fun b g hb => ⟨by simp [devs], ?_⟩
  have hS : dnext c S g (.writtenLoad .acquire) b =
      { S with V := ⟨fun i => S.V.v i ∨ i < (show Nat from b), S.V.a, max S.V.wn (show Nat from b)⟩ } := by
    simp [dnext, devs, dheld, dV, MOrd.acq]
  rw [hS]
  refine d_still trivial fun _ => d_still trivial fun _ => ?_
  refine d_settled (fun i hi => .inr hi) fun V' r h1 h3 h2 => ?_
  refine d_still trivial fun _ => ?_
  exact hk V' r ⟨fun i x => h1.v i (.inl x), h1.a, Nat.le_trans (Nat.le_max_left _ _) h1.wn⟩ (Nat.le_trans hb h3) h2

theorem d_reservedLen {k : Nat → Prog α ρ} (hk : ∀ n, Does c A Q QP (k n) S) :
    Does c A Q QP (CVec.reservedLen.bind k) S := by
  simp only [CVec.reservedLen, Prog.bind_eq, Prog.bind_assoc, Prog.pure_eq, Prog.ret_bind]
  exact d_still trivial fun _ => d_still trivial fun _ => hk _

theorem d_get {i : Nat} {k : Option Nat → Prog α ρ}
    (hk : ∀ V' o, S.V.Le V' → Does c A Q QP (k o) { S with V := V' }) :
    Does c A Q QP ((CVec.get i).bind k) S := by
  simp only [CVec.get, Prog.bind_eq, Prog.bind_assoc, Prog.pure_eq, Prog.ret_bind]
  refine d_len fun V' n h1 _ _ => ?_
  split
  · exact d_colGet (hk _ _ h1) fun _ => hk _ _ h1
  · exact hk _ _ h1

theorem d_iter {k : List Nat → Prog α ρ}
    (hk : ∀ V' n, S.V.Le V' → S.V.wn ≤ n → (∀ i, i < n → V'.v i) → Does c A Q QP (k (positions 0 n)) { S with V := V' }) :
    Does c A Q QP (CVec.iter.bind k) S := by
  simp only [CVec.iter, Prog.bind_eq, Prog.bind_assoc, Prog.pure_eq, Prog.ret_bind]
  exact d_len hk

theorem d_slice {r : Rng} {k : Slc → Prog α ρ}
    (hk : ∀ V' s, S.V.Le V' → (∀ i, i < s.a + s.len → V'.v i) → Does c A Q QP (k s) { S with V := V' }) :
    Does c A Q QP ((CVec.slice r).bind k) S := by
  simp only [CVec.slice, Prog.bind_eq, Prog.bind_assoc, Prog.pure_eq, Prog.ret_bind]
  refine d_len fun V' n h1 _ h2 => hk V' _ h1 fun i hi => h2 i ?_
  have : (rangeLimits r n).2 ≤ n ∧ (rangeLimits r n).1 ≤ (rangeLimits r n).2 := by
    unfold rangeLimits; constructor
    · exact Nat.min_le_right _ _
    · exact Nat.min_le_right _ _
  simp only at hi
  omega

theorem d_asSlice {k : Slc → Prog α ρ}
    (hk : ∀ V' n, S.V.Le V' → S.V.wn ≤ n → (∀ i, i < n → V'.v i) → Does c A Q QP (k ⟨0, n⟩) { S with V := V' }) :
    Does c A Q QP (CVec.asSlice.bind k) S := by
  simp only [CVec.asSlice, CVec.slice, Prog.bind_eq, Prog.bind_assoc, Prog.pure_eq, Prog.ret_bind]
  refine d_len fun V1 n h1 h5 h2 => d_len fun V2 n' h3 h6 h4 => ?_
  have : rangeLimits (.co 0 n) n' = (0, min n n') := by
    simp only [rangeLimits, Rng.co, Nat.zero_min]
  rw [this]
  refine hk V2 (min n n') (h1.trans h3) (Nat.le_min.2 ⟨h5, Nat.le_trans h1.wn h6⟩) (fun i hi => h4 i ?_)
  exact Nat.lt_of_lt_of_le hi (Nat.min_le_right _ _)

theorem d_getRaw {o : MOrd} {i : Nat} {k : Option Nat → Prog α ρ}
    (hk : ∀ V' p, S.V.Le V' → Does c A Q QP (k p) { S with V := V' }) :
    Does c A Q QP ((COpt.getRaw o i).bind k) S := by
  simp only [COpt.getRaw, Prog.bind_eq, Prog.bind_assoc, Prog.pure_eq, Prog.ret_bind]
  refine d_act trivial fun b g _ => ⟨by simp [devs], ?_⟩
  have hS : dnext c S g (.stLoad i o) b = { S with V := ⟨fun j => S.V.v j ∨ (j = i ∧ (show CState from b) ≠ .NONE), S.V.a, S.V.wn⟩ } := by
    simp [dnext, devs, dheld, dV]
  rw [hS]
  exact hk _ _ ⟨fun _ x => .inl x, fun _ x => x, Nat.le_refl _⟩

theorem d_rawRefs {o : MOrd} : ∀ {l : List Nat} {V : Kn} {k : List Nat → Prog α ρ},
    (∀ V' p, V.Le V' → Does c A Q QP (k p) { S with V := V' }) →
    Does c A Q QP ((Loop.rawRefs o l).bind k) { S with V := V } := by
  intro l
  induction l with
  | nil => intro V k hk; exact hk _ _ (.refl _)
  | cons i is ih =>
    intro V k hk
    simp only [Loop.rawRefs, Prog.bind_eq, Prog.bind_assoc, Prog.pure_eq, Prog.ret_bind]
    refine d_getRaw fun V1 p h1 => ?_
    refine ih fun V2 ps h2 => ?_
    cases p
    · exact hk _ _ (h1.trans h2)
    · exact hk _ _ (h1.trans h2)

theorem d_growTo {n : Nat} {k : Unit → Prog α ρ} (hp : ∀ k, QP S k) (hk : Does c A Q QP (k ()) S) :
    Does c A Q QP ((Col.growTo n).bind k) S := by
  simp only [Col.growTo, Prog.bind_eq, Prog.bind_assoc]
  refine d_still trivial fun _ => ?_
  split
  · exact hk
  · simp only [Prog.bind_eq, Prog.bind_assoc]
    refine d_still trivial fun _ => ?_
    split
    · simp only [Prog.bind_eq, Prog.bind_assoc]
      exact d_still trivial fun _ => d_still trivial fun _ => hk
    · exact hp _

theorem d_singleItem {i : Nat} {k : Unit → Prog α ρ} (hp : ∀ k, QP S k) (hk : Does c A Q QP (k ()) S) :
    Does c A Q QP ((Col.singleItem i).bind k) S := by
  simp only [Col.singleItem, Col.assertHasCapacityFor, Prog.bind_eq, Prog.bind_assoc]
  refine d_still trivial fun _ => ?_
  split
  · refine d_spinStill trivial fun _ => ?_
    split
    · exact hk
    · exact d_growTo hp hk
    · exact hk
  · exact hp _

theorem d_nItems {b n : Nat} {k : Unit → Prog α ρ} (hp : 0 < n → ∀ k, QP S k) (hk : Does c A Q QP (k ()) S) :
    Does c A Q QP ((Col.nItems b n).bind k) S := by
  simp only [Col.nItems, Col.assertHasCapacityFor]
  split
  · exact hk
  · next h =>
    have hp := hp (Nat.pos_of_ne_zero h)
    simp only [Prog.bind_eq, Prog.bind_assoc]
    refine d_still trivial fun _ => ?_
    split
    · refine d_spinStill trivial fun _ => ?_
      split
      · exact hk
      · exact d_growTo hp hk
      · exact hk
    · exact hp _

end Verif.Weak
