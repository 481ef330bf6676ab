import Verif.Weak.Model

/-!
# Knowledge of a call, and what an action needs and gives

Helper file (no property statements).
-/

namespace Verif.Weak

variable {α β ρ ρ' : Type}

/-- What a call owns and knows. Knowledge is never invalidated by others. -/
structure Know where
  /-- positions reserved by the call and not yet published -/
  U : Nat → Prop
  /-- positions whose value the call has written -/
  W : Nat → Prop
  /-- positions whose handle the call holds -/
  L : Nat → Prop
  /-- positions reserved by the call -/
  R : Nat → Prop
  /-- the call cannot see the state `NONE` of the position any more -/
  V : Nat → Prop
  /-- the allocation of the position happened before -/
  A : Nat → Prop
  /-- the initialisation of the position happened before -/
  P : Nat → Prop
  /-- capacities from which the call has grown the storage -/
  Gr : Nat → Prop
  /-- the call has allocated and not yet published -/
  G : Prop
  /-- a capacity acquired by the call -/
  C : Option Nat
  /-- the storage allocated by the call has at least so many positions -/
  N : Nat
  /-- the call cannot see a smaller `len_reserved` -/
  rk : Nat
  /-- the call cannot see a smaller `len_written` -/
  wn : Nat
  /-- `len_reserved` when the call was made -/
  lo : Nat

def Know.empty : Know where
  U _ := False
  W _ := False
  L _ := False
  R _ := False
  V _ := False
  A _ := False
  P _ := False
  Gr _ := False
  G := False
  C := none
  N := 0
  rk := 0
  wn := 0
  lo := 0

/-- Restrictions on the calls of an execution. -/
structure Mode where
  /-- positions which user code may read through pointers; then nobody may write to the existing element -/
  deref : Nat → Prop
  /-- nobody takes handles of elements -/
  nolock : Prop
  /-- who waits for the handle of the second position may hold the handle of the first one -/
  nest : Nat → Nat → Prop

/-- Who waits for a handle while holding another one holds the one of a smaller position. -/
def Mode.ordered (D : Mode) : Prop := ∀ i j, D.nest i j → i < j

/-- What an action needs. -/
def Pre (D : Mode) (mx : Nat) (K : Know) : Act α → Prop
  | .resFetchAdd _ _ => True
  | .resLoad _ => True
  | .writtenLoad _ => True
  | .writtenFetchMax n o => o.rel = true ∧ ∀ i, i < n → K.V i ∧ K.A i
  | .capLoad _ => True
  | .maxCapLoad => True
  | .growAlloc n => ¬ K.G ∧ n ≤ mx ∧ ∃ x, K.C = some x ∧ K.U x ∧ ¬ K.Gr x ∧ x < n
  | .growPublish o => o.rel = true ∧ K.G
  | .stLoad i _ => K.A i
  | .stCas i e n ok _ => K.A i ∧ e = .SOME ∧ n = .RESERVED ∧ ok.acq = true ∧ ¬ D.nolock
  | .stStore i s o => K.A i ∧ s = .SOME ∧ o.rel = true ∧ (K.L i ∨ (K.U i ∧ K.W i))
  | .valRead i => K.A i ∧ (K.L i ∨ (D.deref i ∧ K.P i))
  | .valWrite i _ => K.A i ∧ ((K.L i ∧ ¬ D.deref i) ∨ (K.U i ∧ ∀ j, K.R j → K.A j))
  | .valSwap i j => K.A i ∧ K.A j ∧ K.L i ∧ K.L j ∧ i ≠ j ∧ ¬ D.deref i ∧ ¬ D.deref j

/-- Responses that are possible for a call that knows `K`. -/
def Can (D : Mode) (mx : Nat) (K : Know) : (a : Act α) → a.Resp → Prop
  | .resFetchAdd _ _, (b : Nat) => K.lo ≤ b ∧ K.rk ≤ b ∧ ∀ i, K.R i → i < b
  | .resLoad _, (b : Nat) => K.rk ≤ b
  | .writtenLoad _, (b : Nat) => K.wn ≤ b
  | .capLoad _, (b : Nat) => ∀ i, K.A i → i < b
  | .maxCapLoad, (b : Nat) => b = mx
  | .stLoad i _, (s : CState) => (K.V i → s ≠ .NONE) ∧ (D.nolock → s ≠ .RESERVED)
  | .stCas i _ _ _ _, (r : Option CState) =>
      match r with
      | none => ¬ K.L i ∧ ¬ K.U i
      | some s => s ≠ .SOME ∧ (K.V i → s ≠ .NONE)
  | _, _ => True

/-- Knowledge after an action. -/
def next (K : Know) : (a : Act α) → a.Resp → Know
  | .resFetchAdd n _, (b : Nat) => { K with
      U := fun i => K.U i ∨ (b ≤ i ∧ i < b + n)
      W := fun i => K.W i ∧ ¬ (b ≤ i ∧ i < b + n)
      R := fun i => K.R i ∨ (b ≤ i ∧ i < b + n)
      rk := max K.rk (b + n) }
  | .resLoad _, (b : Nat) => { K with rk := max K.rk b }
  | .writtenLoad o, (b : Nat) => { K with
      V := fun i => K.V i ∨ (o.acq = true ∧ i < b)
      A := fun i => K.A i ∨ (o.acq = true ∧ i < b)
      wn := max K.wn b }
  | .writtenFetchMax n _, _ => { K with wn := max K.wn n }
  | .capLoad o, (b : Nat) => { K with
      A := fun i => K.A i ∨ (o.acq = true ∧ i < b)
      C := if o.acq = true then some b else K.C }
  | .maxCapLoad, _ => K
  | .growAlloc n, _ => { K with
      G := True
      Gr := fun i => K.Gr i ∨ K.C = some i
      N := n }
  | .growPublish _, _ => { K with
      G := False
      A := fun i => K.A i ∨ i < K.N }
  | .stLoad i o, (s : CState) => { K with
      V := fun j => K.V j ∨ (j = i ∧ s ≠ .NONE)
      P := fun j => K.P j ∨ (j = i ∧ s = .SOME ∧ o.acq = true) }
  | .stCas i _ _ _ _, (r : Option CState) =>
      match r with
      | none => { K with
          L := fun j => K.L j ∨ j = i
          V := fun j => K.V j ∨ j = i
          P := fun j => K.P j ∨ j = i }
      | some s => { K with V := fun j => K.V j ∨ (j = i ∧ s ≠ .NONE) }
  | .stStore i _ _, _ => { K with
      L := fun j => K.L j ∧ j ≠ i
      U := fun j => K.U j ∧ j ≠ i
      V := fun j => K.V j ∨ j = i
      P := fun j => K.P j ∨ j = i }
  | .valRead _, _ => K
  | .valWrite i _, _ => { K with W := fun j => K.W j ∨ j = i }
  | .valSwap _ _, _ => K

/-- Responses after which the action may be repeated: nothing has changed, and the call has to wait: for its own positions to be
the next ones to be allocated, or for the handle of an element. -/
def Keeps (D : Mode) (mx : Nat) (K : Know) : (a : Act α) → a.Resp → Prop
  | .capLoad _, (b : Nat) => (∃ i, K.R i) ∧ ∀ i, K.R i → b < i ∧ i < mx
  | .stCas i _ _ _ _, (r : Option CState) => r = some .RESERVED ∧ (∀ j, ¬ K.R j) ∧ ∀ j, K.L j → D.nest j i
  | _, _ => False

/-- A program is safe for a call that knows `K`; `Q`, `QP`: what holds when it returns or panics. -/
def Safe (D : Mode) (mx : Nat) (Q : Know → ρ → Prop) (QP : Know → PanicKind → Prop) : Prog α ρ → Know → Prop
  | .ret r, K => Q K r
  | .panic k, K => QP K k
  | .step a again k, K => Pre D mx K a ∧ ∀ b, Can D mx K a b →
      (again b = true → Keeps D mx K a b) ∧ (again b = false → Safe D mx Q QP (k b) (next K a b))

theorem Safe.bind {D : Mode} {mx : Nat} {Q : Know → ρ → Prop} {Q' : Know → ρ' → Prop} {QP : Know → PanicKind → Prop}
    {p : Prog α ρ} {f : ρ → Prog α ρ'} (hf : ∀ K r, Q K r → Safe D mx Q' QP (f r) K) :
    ∀ {K : Know}, Safe D mx Q QP p K → Safe D mx Q' QP (p.bind f) K := by
  induction p with
  | ret r => intro K h; exact hf K r h
  | panic k => intro K h; exact h
  | step a again k ih =>
    intro K h
    exact ⟨h.1, fun b hb => ⟨(h.2 b hb).1, fun ha => ih b ((h.2 b hb).2 ha)⟩⟩

end Verif.Weak
