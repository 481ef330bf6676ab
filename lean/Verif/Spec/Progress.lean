import Verif.Spec.Calls

/-!
# Vocabulary of the progress properties

Who can make a step, infinite executions, fairness.
-/

namespace Verif

variable {α β : Type}

/-- Call `c` makes the step from `κ` to `κ'`: it performs its next primitive action, or returns, or panics. -/
def Cfg.Moves (κ : Cfg α β) (c : Cid) (κ' : Cfg α β) : Prop :=
  ∃ r, κ.calls c = some r ∧
    ((∃ a again k w' b, r.status = .running (.step a again k) ∧ κ.w.exec c a = some (w', b) ∧
        κ' = { κ with
          w := w'
          calls := κ.setStatus c r (.running (if again b then .step a again k else k b))
          clock := κ.clock + 1 }) ∨
     (∃ x, r.status = .running (.ret x) ∧
        κ' = { κ with calls := κ.setStatus c r (.done x κ.clock κ.w), clock := κ.clock + 1 }) ∨
     (∃ k, r.status = .running (.panic k) ∧
        κ' = { κ with calls := κ.setStatus c r (.panicked k κ.clock κ.w), clock := κ.clock + 1 }))

/-- Call `c` is running, but at this moment a step of it changes nothing (it only waits). -/
def Cfg.Blocked (κ : Cfg α β) (c : Cid) : Prop :=
  (∃ op, κ.Running c op) ∧ ∀ κ', κ.Moves c κ' → κ'.calls c = κ.calls c ∧ κ'.w.mem = κ.w.mem

/-- Some calls are running and none of them can do anything but wait: from here nothing ever happens again unless
somebody makes a new call. -/
def Cfg.Stuck (κ : Cfg α β) : Prop := ¬ κ.Idle ∧ ∀ c op, κ.Running c op → κ.Blocked c

/-- `κ'` can be reached from `κ`: any steps of running calls, any new calls. -/
inductive Cfg.Leads (κ : Cfg α β) : Cfg α β → Prop where
  | refl : κ.Leads κ
  | step {κ' κ'' : Cfg α β} : κ.Leads κ' → Step κ' κ'' → κ.Leads κ''

/-- Nothing has happened that could have lost the position at which the storage has to grow next: no closure of
`push_for_idx` panicked at a position that is not yet allocated, and the maximum capacity was not raised after a growth
call ran into it. (Other panics of growth calls are allowed, in particular those for exceeding the maximum capacity.) -/
def Cfg.GrowthIntact (κ : Cfg α β) : Prop :=
  ∀ c op k m, κ.Panicked c op k → κ.AtEnd c m →
    (k = .maxCapacity → κ.w.mem.maxCap = m.maxCap) ∧
    (∀ f, op = .pushForIdx f → k = .userCode → m.reserved ≤ κ.w.mem.cap)

/-- Blocking swaps are called with the smaller index first. (If `ConcurrentOption::mut_handle` does not block, any
order is fine.) -/
def Op.SwapsUp : Op α β → Prop
  | .swap .spinning i j => i < j
  | .slSwap .spinning _ i j => i < j
  | _ => True

/-- The function locks elements, i.e. it accesses values through `ConcurrentElement`. -/
def Op.Locks : Op α β → Prop
  | .getCloned _ | .iterCloned | .map _ | .filter _ | .fold _ _ | .visit _ _ | .reduce _ | .indexOf _ _ | .contains _ _
  | .cloneToVec | .eqList _ _ | .debug _ | .swap _ _ _ | .fill _ | .fillWith _
  | .elCloned _ | .elMap _ _ | .elReplace _ _ | .elSet _ _ | .elUpdate _ _ | .elEq _ _ _
  | .slGetCloned _ _ | .slIterCloned _ | .slMap _ _ | .slFilter _ _ | .slFold _ _ _ | .slVisit _ _ _ | .slReduce _ _
  | .slIndexOf _ _ _ | .slContains _ _ _ | .slEqList _ _ _ | .slDebug _ _ | .slSwap _ _ _ _ | .slFill _ _
  | .slFillWith _ _ => True
  | _ => False

/-- `κ 0, κ 1, …` is an infinite execution starting with a vector that holds `l`. -/
structure InfExec (m : Mem α) (l : List α) (κ : Nat → Cfg α β) : Prop where
  init : κ 0 = Cfg.init m l
  next : ∀ t, Step (κ t) (κ (t + 1))

/-- Fair scheduling: every running call makes a step again and again. -/
def Fair (κ : Nat → Cfg α β) : Prop :=
  ∀ t c op, (κ t).Running c op → ∃ t', t ≤ t' ∧ (κ t').Moves c (κ (t' + 1))

/-- Fair scheduling of all calls outside `S`; nothing is said about the scheduling of the calls in `S`. -/
def FairExcept (S : Cid → Prop) (κ : Nat → Cfg α β) : Prop :=
  ∀ t c op, ¬ S c → (κ t).Running c op → ∃ t', t ≤ t' ∧ (κ t').Moves c (κ (t' + 1))

/-- From moment `T` on call `c` does not get any further. -/
def StalledFrom (κ : Nat → Cfg α β) (T : Nat) (c : Cid) : Prop := ∀ t, T ≤ t → (κ t).calls c = (κ T).calls c

/-- Strongly fair scheduling: in addition, a call that is able to proceed again and again (possibly not all the time)
makes again and again a step at a moment at which it is able to proceed. -/
def StronglyFair (κ : Nat → Cfg α β) : Prop :=
  Fair κ ∧ ∀ c, (∀ t, ∃ t', t ≤ t' ∧ (∃ op, (κ t').Running c op) ∧ ¬ (κ t').Blocked c) →
    ∀ t, ∃ t', t ≤ t' ∧ ¬ (κ t').Blocked c ∧ (κ t').Moves c (κ (t' + 1))

/-- Strongly fair scheduling of all calls outside `S`. -/
def StronglyFairExcept (S : Cid → Prop) (κ : Nat → Cfg α β) : Prop :=
  FairExcept S κ ∧ ∀ c, ¬ S c → (∀ t, ∃ t', t ≤ t' ∧ (∃ op, (κ t').Running c op) ∧ ¬ (κ t').Blocked c) →
    ∀ t, ∃ t', t ≤ t' ∧ ¬ (κ t').Blocked c ∧ (κ t').Moves c (κ (t' + 1))

/-- The positions whose elements the function uses: one or two elements given by the arguments, the elements of the
slice, or all elements. -/
def Op.Uses (i : Nat) : Op α β → Prop
  | .getCloned j | .elCloned j | .elMap _ j | .elReplace j _ | .elSet j _ | .elUpdate _ j | .elEq _ _ j => i = j
  | .slGetCloned s j => i = s.a + j
  | .swap _ j k => i = j ∨ i = k
  | .slSwap _ s j k => i = s.a + j ∨ i = s.a + k
  | .slIterCloned s | .slMap s _ | .slFilter s _ | .slFold s _ _ | .slVisit s _ _ | .slReduce s _ | .slIndexOf s _ _
  | .slContains s _ _ | .slEqList s _ _ | .slDebug s _ | .slFill s _ | .slFillWith s _ => s.a ≤ i ∧ i < s.a + s.len
  | .iterCloned | .map _ | .filter _ | .fold _ _ | .visit _ _ | .reduce _ | .indexOf _ _ | .contains _ _ | .cloneToVec
  | .eqList _ _ | .debug _ | .fill _ | .fillWith _ => True
  | _ => False

/-- The function is a method of the element at position `i` that accesses its value. -/
def Op.MethodOf (i : Nat) : Op α β → Prop
  | .elCloned j | .elMap _ j | .elReplace j _ | .elSet j _ | .elUpdate _ j | .elEq _ _ j => i = j
  | _ => False

/-- The function exchanges elements and may wait for element `j` while it keeps element `i` locked. -/
def Op.SwapsWith (i j : Nat) : Op α β → Prop
  | .swap .spinning a b => i = a ∧ j = b
  | .slSwap .spinning s a b => i = s.a + a ∧ j = s.a + b
  | _ => False

/-- In the execution `κ`, call `c` has locked element `i` before moment `n` (its compare-exchange of the state byte
succeeded), and the element has been locked ever since. -/
def HasLocked (κ : Nat → Cfg α β) (n : Nat) (c : Cid) (i : Nat) : Prop :=
  ∃ t, t < n ∧ (∃ o f, (κ t).Next c (.stCas i .SOME .RESERVED o f)) ∧ (κ t).Moves c (κ (t + 1)) ∧
    (κ t).w.mem.st i = .SOME ∧ ∀ u, t < u → u ≤ n → (κ u).w.mem.st i = .RESERVED

/-- Only finitely many calls are made. -/
def FinitelyManyCalls (κ : Nat → Cfg α β) : Prop := ∃ N, ∀ t c op, (κ t).Called c op → c < N

end Verif
