import Verif.Model.Conc

/-!
# Vocabulary of the property statements

What the properties talk about: calls with their results, which call was over before which other one began,
the content of the vector, executions and moments of an execution, and how the API functions are classified.
Nothing here refers to the ghost state of the model (trace, abstract vector, holder, grower) and nothing refers
to the programs of the API functions.
-/

namespace Verif

variable {α β : Type}

/-- The value of position `i` as any reader of the state byte and the storage sees it: nothing before the
position is initialised. -/
def Mem.content (m : Mem α) (i : Nat) : Option α := if m.st i = .NONE then none else m.val i

/-- Content of the vector in a configuration. -/
abbrev Cfg.content (κ : Cfg α β) (i : Nat) : Option α := κ.w.mem.content i

/-- The positions initialised without a gap, from position 0 on, hold the values `vs`. -/
def Mem.Leading (m : Mem α) (vs : List α) : Prop :=
  (∀ i, i < vs.length → m.content i = vs[i]?) ∧ m.content vs.length = none

/-- The vector holds exactly the elements `vs`. -/
def Mem.Holds (m : Mem α) (vs : List α) : Prop := ∀ i, m.content i = vs[i]?

/-- Time and world of the end of a call. -/
def Status.ended : Status α β → Option (Nat × World α)
  | .running _ => none
  | .done _ t f => some (t, f)
  | .panicked _ t f => some (t, f)

/-- Call `r1` was over before call `r2` was invoked. -/
def Rec.Before (r1 r2 : Rec α β) : Prop := ∃ t f, r1.status.ended = some (t, f) ∧ t < r2.callT

namespace Cfg

/-- Call `c` is a call of `op`; it may be running, or have returned or panicked. -/
def Called (κ : Cfg α β) (c : Cid) (op : Op α β) : Prop :=
  ∃ ct st s, κ.calls c = some ⟨op, ct, st, s⟩

/-- Call `c` of `op` is over and returned `x`. -/
def Returned (κ : Cfg α β) (c : Cid) (op : Op α β) (x : Ret α β) : Prop :=
  ∃ ct st et fin, κ.calls c = some ⟨op, ct, st, .done x et fin⟩

/-- Call `c` of `op` is over and panicked with `k`. -/
def Panicked (κ : Cfg α β) (c : Cid) (op : Op α β) (k : PanicKind) : Prop :=
  ∃ ct st et fin, κ.calls c = some ⟨op, ct, st, .panicked k et fin⟩

/-- Call `c` of `op` has been invoked and is not over. -/
def Running (κ : Cfg α β) (c : Cid) (op : Op α β) : Prop :=
  ∃ ct st p, κ.calls c = some ⟨op, ct, st, .running p⟩

/-- Call `c` was over (returned or panicked) before call `d` was invoked. -/
def Before (κ : Cfg α β) (c d : Cid) : Prop :=
  ∃ r1 r2, κ.calls c = some r1 ∧ κ.calls d = some r2 ∧ r1.Before r2

/-- Calls `c` and `d` overlap in time. -/
def Overlap (κ : Cfg α β) (c d : Cid) : Prop :=
  (∃ r, κ.calls c = some r) ∧ (∃ r, κ.calls d = some r) ∧ ¬ κ.Before c d ∧ ¬ κ.Before d c

/-- Call `c` overlaps with no other call. -/
def Alone (κ : Cfg α β) (c : Cid) : Prop := ∀ d, d ≠ c → ¬ κ.Overlap c d

/-- The memory at the moment call `c` was invoked. -/
def AtStart (κ : Cfg α β) (c : Cid) (m : Mem α) : Prop :=
  ∃ r, κ.calls c = some r ∧ m = r.start.mem

/-- The memory at the moment call `c` returned or panicked. -/
def AtEnd (κ : Cfg α β) (c : Cid) (m : Mem α) : Prop :=
  ∃ r t w, κ.calls c = some r ∧ r.status.ended = some (t, w) ∧ m = w.mem

/-- Time of the invocation of call `c`. -/
def CalledAt (κ : Cfg α β) (c : Cid) (t : Nat) : Prop := ∃ r, κ.calls c = some r ∧ r.callT = t

/-- Time at which call `c` returned or panicked. -/
def EndedAt (κ : Cfg α β) (c : Cid) (t : Nat) : Prop := ∃ r w, κ.calls c = some r ∧ r.status.ended = some (t, w)

/-- The next thing call `c` does is the primitive action `a`. -/
def Next (κ : Cfg α β) (c : Cid) (a : Act α) : Prop :=
  ∃ op ct st again k, κ.calls c = some ⟨op, ct, st, .running (.step a again k)⟩

end Cfg

/-! ## Executions -/

/-- `κ 0, κ 1, …, κ n` is an execution starting with a vector that holds `l`. -/
structure Exec (m : Mem α) (l : List α) (n : Nat) (κ : Nat → Cfg α β) : Prop where
  init : κ 0 = Cfg.init m l
  next : ∀ t, t < n → Step (κ t) (κ (t + 1))

/-- `t` lies between the invocation and the end (if any) of call `c`, as recorded in `κ`. -/
def Cfg.During (κ : Cfg α β) (c : Cid) (t : Nat) : Prop :=
  (∃ t0, κ.CalledAt c t0 ∧ t0 ≤ t) ∧ ∀ t1, κ.EndedAt c t1 → t ≤ t1

/-- In the execution `κ 0, …, κ n`, the `fetch_add(k)` by which call `c` reserves positions returned `b`. -/
def Received (κ : Nat → Cfg α β) (n : Nat) (c : Cid) (b k : Nat) : Prop :=
  ∃ t o, t < n ∧ (κ t).Next c (.resFetchAdd k o) ∧ (κ t).w.mem.reserved = b ∧
    ¬ (κ (t + 1)).Next c (.resFetchAdd k o)

/-- In the execution `κ 0, …, κ n`, `v` is the first value of position `i`. -/
def FirstValue (κ : Nat → Cfg α β) (n i : Nat) (v : α) : Prop :=
  (κ 0).content i = some v ∨ ∃ t, t < n ∧ (κ t).content i = none ∧ (κ (t + 1)).content i = some v

/-! ## Classification of the primitive actions -/

/-- The action accesses the storage (state byte or value) of position `i`. -/
def Act.Touches (i : Nat) : Act α → Prop
  | .stLoad j _ | .stCas j _ _ _ _ | .stStore j _ _ | .valRead j | .valWrite j _ => i = j
  | .valSwap j k => i = j ∨ i = k
  | _ => False

/-- The action reads the value of position `i`. -/
def Act.ReadsValue (i : Nat) : Act α → Prop
  | .valRead j => i = j
  | .valSwap j k => i = j ∨ i = k
  | _ => False

/-- The action writes the value of position `i`. -/
def Act.WritesValue (i : Nat) : Act α → Prop
  | .valWrite j _ => i = j
  | .valSwap j k => i = j ∨ i = k
  | _ => False

/-- The action belongs to growing the storage. -/
def Act.Grows : Act α → Prop
  | .growAlloc _ | .growPublish _ => True
  | _ => False

/-! ## Classification of the API -/

/-- Number of positions a growth call asks for; `none`: not a growth call. -/
def Op.size : Op α β → Option Nat
  | .push _ | .pushForIdx _ => some 1
  | .extend it => some it.hint
  | .extendN _ n | .extendForIdx _ n => some n
  | _ => none

/-- `vs` are the values which a growth call that was given the first position `b` has to store. -/
def Op.Stores (b : Nat) (vs : List α) : Op α β → Prop
  | .push v => vs = [v]
  | .pushForIdx f => ∃ v, f b = some v ∧ vs = [v]
  | .extend it => vs.length = it.hint ∧ vs.map some <+: it.items
  | .extendN items n => vs.length = n ∧ vs.map some <+: items
  | .extendForIdx f n => ∃ it, f b = some it ∧ vs.length = n ∧ vs.map some <+: it.items
  | _ => False

/-- The call may change the value of the already initialised position `i`. -/
def Op.MayWrite (i : Nat) : Op α β → Prop
  | .elReplace e _ | .elSet e _ | .elUpdate _ e => e = i
  | .swap _ a b => i = a ∨ i = b
  | .fill _ | .fillWith _ => True
  | .slSwap _ s a b => i = s.a + a ∨ i = s.a + b
  | .slFill s _ | .slFillWith s _ => s.a ≤ i ∧ i < s.a + s.len
  | _ => False

/-- The call changes no element (it may grow the vector). -/
def Op.NoWrite (op : Op α β) : Prop := ∀ i, ¬ op.MayWrite i

/-- The call with result `x` reports that the vector has `n` elements. -/
def Op.ReportsLen (n : Nat) (x : Ret α β) : Op α β → Prop
  | .len => x = .nat n
  | .iter => x = .elems (List.range n)
  | .asSlice => x = .slc ⟨0, n⟩
  | _ => False

/-- Effect and result of an operation on a single element `i`: it finds `old`, leaves `new` and returns `x`. -/
def Op.Atomic (i : Nat) (old new : α) (x : Ret α β) : Op α β → Prop
  | .elCloned e => e = i ∧ new = old ∧ x = .val old
  | .elMap f e => e = i ∧ new = old ∧ ∃ b, f old = some b ∧ x = .beta b
  | .elReplace e v => e = i ∧ new = v ∧ x = .val old
  | .elSet e v => e = i ∧ new = v ∧ x = .unit
  | .elUpdate f e => e = i ∧ f old = (new, true) ∧ x = .unit
  | .elEq veq v e => e = i ∧ new = old ∧ x = .bool (veq old v)
  | .getCloned e => e = i ∧ new = old ∧ x = .optVal (some old)
  | .slGetCloned s e => s.a + e = i ∧ new = old ∧ x = .optVal (some old)
  | _ => False

/-- Operations on the single element `i`. -/
def Op.OnElement (i : Nat) : Op α β → Prop
  | .elCloned e | .elMap _ e | .elReplace e _ | .elSet e _ | .elUpdate _ e | .elEq _ _ e | .getCloned e => e = i
  | .slGetCloned s e => s.a + e = i
  | _ => False

/-- The call is a `swap` (of the vector or a slice) of positions `i` and `j`. -/
def Op.SwapOf (i j : Nat) : Op α β → Prop
  | .swap _ a b => i = a ∧ j = b
  | .slSwap _ s a b => i = s.a + a ∧ j = s.a + b
  | _ => False

/-- The documented panics: `op` may panic with `k` (`src/grow.rs:13-18,188-193,289-291,350-352`,
`src/common_traits/index.rs:17-19,37-39`, `src/split.rs:12-14,105-107`; user closures and iterators). -/
def Op.MayPanic : Op α β → PanicKind → Prop
  | .push _, .maxCapacity => True
  | .pushForIdx _, .maxCapacity => True
  | .pushForIdx f, .userCode => ∃ i, f i = none
  | .extend _, .maxCapacity => True
  | .extend it, .iterTooShort => it.items.length < it.hint
  | .extend it, .userCode => none ∈ it.items
  | .extendN _ _, .maxCapacity => True
  | .extendN items n, .iterTooShort => items.length < n
  | .extendN items _, .userCode => none ∈ items
  | .extendForIdx _ _, .maxCapacity => True
  | .extendForIdx f n, .iterTooShort => ∃ b it, f b = some it ∧ it.hint = n ∧ it.items.length < n
  | .extendForIdx f n, .iterLenMismatch => ∃ b it, f b = some it ∧ it.hint ≠ n
  | .extendForIdx f _, .userCode => ∃ b, f b = none ∨ ∃ it, f b = some it ∧ none ∈ it.items
  | .index _, .outOfBounds => True
  | .splitAt _, .splitMid => True
  | .chunks k, .chunkZero => k = 0
  | .map f, .userCode | .elMap f _, .userCode | .slMap _ f, .userCode => ∃ v, f v = none
  | .filter f, .userCode | .slFilter _ f, .userCode => ∃ v, f v = none
  | .fold f _, .userCode | .slFold _ f _, .userCode => ∃ b v, f b v = none
  | .visit f _, .userCode | .slVisit _ f _, .userCode => ∃ b v, f b v = none
  | .reduce f, .userCode | .slReduce _ f, .userCode => ∃ u v, f u v = none
  | .eqList veq _, .userCode | .slEqList _ veq _, .userCode => ∃ u v, veq u v = none
  | .fillWith f, .userCode | .slFillWith _ f, .userCode => ∃ i, f i = none
  | .elUpdate f _, .userCode => ∃ v, (f v).2 = false
  | .slIndex s i, .outOfBounds => s.len ≤ i
  | .slSplitAt s mid, .splitMid => s.len < mid
  | .slChunks _ k, .chunkZero => k = 0
  | _, _ => False

/-- Function of the crate (not user code dereferencing a raw pointer). -/
def Op.IsApi : Op α β → Prop
  | .deref _ => False
  | _ => True

end Verif
