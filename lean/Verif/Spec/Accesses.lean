import Verif.Spec.Events
import Verif.Spec.Calls

/-!
# Which element accesses explain the result of a call

For every API function: the reservations, initialisations, reads and writes (`Ev`) by which a call with result `x` is explained.
Nothing here refers to the programs of the API functions.
-/

namespace Verif

variable {α β : Type}

/-- Events reading consecutive positions. -/
def reads (c : Cid) : Nat → List α → List (Ev α)
  | _, [] => []
  | a, v :: vs => .read c a v :: reads c (a + 1) vs

/-- Events writing consecutive positions: pairs of old and new value. -/
def writes (c : Cid) : Nat → List (α × α) → List (Ev α)
  | _, [] => []
  | a, p :: ps => .write c a p.1 p.2 :: writes c (a + 1) ps

/-- Positions (counted from `a`) of the values satisfying `f`. -/
def selected (f : α → Option Bool) : Nat → List α → List Nat
  | _, [] => []
  | a, v :: vs => if f v = some true then a :: selected f (a + 1) vs else selected f (a + 1) vs

/-- The text `[x0, x1, …]`. -/
def debugText (show' : α → String) : List α → String
  | [] => "[" ++ "]"
  | v :: vs => vs.foldl (fun s x => s ++ ", " ++ show' x) ("[" ++ show' v) ++ "]"

/-- Events publishing consecutive values. -/
def pubs (c : Cid) : Nat → List α → List (Ev α)
  | _, [] => []
  | a, v :: vs => .publish c a v :: pubs c (a + 1) vs

/-! ## Loops -/

/-- The positions `a, …, a+n-1` are read, and the closure applied to the values gives `bs`. -/
def OutMap (c : Cid) (a n : Nat) (f : α → Option β) (d : List (Ev α)) (bs : List β) : Prop :=
  ∃ vs, vs.length = n ∧ d = reads c a vs ∧ vs.map f = bs.map some

/-- The positions from `a` on are read up to a value for which the closure panics. -/
def FailMap (c : Cid) (a n : Nat) (f : α → Option β) (d : List (Ev α)) : Prop :=
  ∃ vs x, vs.length < n ∧ d = reads c a (vs ++ [x]) ∧ f x = none ∧ ∀ y ∈ vs, f y ≠ none

/-- The positions `a, …, a+n-1` are read; `l` are those whose value satisfies the closure. -/
def OutFilter (c : Cid) (a n : Nat) (f : α → Option Bool) (d : List (Ev α)) (l : List Nat) : Prop :=
  ∃ vs, vs.length = n ∧ d = reads c a vs ∧ (∀ x ∈ vs, f x ≠ none) ∧ l = selected f a vs

/-- The positions `a, …, a+n-1` are read, and folding the values gives `b`. -/
def OutFold (c : Cid) (a n : Nat) (f : β → α → Option β) (init : β) (d : List (Ev α)) (b : β) : Prop :=
  ∃ vs, vs.length = n ∧ d = reads c a vs ∧ vs.foldlM f init = some b

/-- The positions from `a` on are read up to a value for which the closure panics. -/
def FailFold (c : Cid) (a n : Nat) (f : β → α → Option β) (init : β) (d : List (Ev α)) : Prop :=
  ∃ vs x agg, vs.length < n ∧ d = reads c a (vs ++ [x]) ∧ vs.foldlM f init = some agg ∧ f agg x = none

/-- The state of a stateful closure after it was called with the values of the list, and whether it asked for the next value: it
must not have panicked, and asked for another value after each value but perhaps the last. -/
def called (f : β → α → Option (β × Bool)) : β → List α → Option (β × Bool)
  | b, [] => some (b, true)
  | b, v :: vs =>
    match f b v with
    | none => none
    | some (b', true) => called f b' vs
    | some (b', false) => if vs.isEmpty then some (b', false) else none

/-- The positions from `a` on are read, until the closure stops asking or all `n` are read; the state is `b` then. -/
def OutVisit (c : Cid) (a n : Nat) (f : β → α → Option (β × Bool)) (init : β) (d : List (Ev α)) (b : β) : Prop :=
  ∃ vs go, d = reads c a vs ∧ called f init vs = some (b, go) ∧ vs.length ≤ n ∧ (go = true → vs.length = n)

/-- The positions from `a` on are read up to a value for which the closure panics. -/
def FailVisit (c : Cid) (a n : Nat) (f : β → α → Option (β × Bool)) (init : β) (d : List (Ev α)) : Prop :=
  ∃ vs x agg, vs.length < n ∧ d = reads c a (vs ++ [x]) ∧ called f init vs = some (agg, true) ∧ f agg x = none

/-- The positions `a, …, a+n-1` are read, and reducing the values gives `o`. -/
def OutReduce (c : Cid) (a n : Nat) (f : α → α → Option α) (d : List (Ev α)) (o : Option α) : Prop :=
  (n = 0 ∧ d = [] ∧ o = none) ∨
  ∃ v vs b, vs.length + 1 = n ∧ d = reads c a (v :: vs) ∧ vs.foldlM f v = some b ∧ o = some b

/-- The positions from `a` on are read up to a value for which the closure panics. -/
def FailReduce (c : Cid) (a n : Nat) (f : α → α → Option α) (d : List (Ev α)) : Prop :=
  ∃ v vs x agg, vs.length + 1 < n ∧ d = reads c a (v :: (vs ++ [x])) ∧ vs.foldlM f v = some agg ∧
    f agg x = none

/-- The positions from `a` on are read up to the first value equal to `t`, which is at place `o` among the `n`. -/
def OutPosition (c : Cid) (a n : Nat) (veq : α → α → Bool) (t : α) (d : List (Ev α)) (o : Option Nat) : Prop :=
  (∃ vs, vs.length = n ∧ d = reads c a vs ∧ (∀ x ∈ vs, veq x t = false) ∧ o = none) ∨
  ∃ vs x, vs.length < n ∧ d = reads c a (vs ++ [x]) ∧ (∀ y ∈ vs, veq y t = false) ∧ veq x t = true ∧
    o = some vs.length

/-- The positions from `a` on are read up to the first value that is not equal to the one at the same place of `ts`, or until the
`n` positions or the values of `ts` are used up; `b`: all are equal and there are as many positions as values. -/
def OutEq (c : Cid) (a n : Nat) (veq : α → α → Option Bool) (ts : List α) (d : List (Ev α)) (b : Bool) : Prop :=
  (∃ vs, vs.length = min n ts.length ∧ d = reads c a vs ∧ (∀ p ∈ vs.zip ts, veq p.1 p.2 = some true) ∧ b = decide (n = ts.length)) ∨
  ∃ vs x t, vs.length < n ∧ d = reads c a (vs ++ [x]) ∧ (∀ p ∈ vs.zip ts, veq p.1 p.2 = some true) ∧ ts[vs.length]? = some t ∧
    veq x t = some false ∧ b = false

/-- The positions from `a` on are read up to a value whose comparison with the one at the same place of `ts` panics. -/
def FailEq (c : Cid) (a n : Nat) (veq : α → α → Option Bool) (ts : List α) (d : List (Ev α)) : Prop :=
  ∃ vs x t, vs.length < n ∧ d = reads c a (vs ++ [x]) ∧ (∀ p ∈ vs.zip ts, veq p.1 p.2 = some true) ∧ ts[vs.length]? = some t ∧
    veq x t = none

/-- All positions `a, …, a+n-1` are set to `v`. -/
def OutFill (c : Cid) (a n : Nat) (v : α) (d : List (Ev α)) : Prop :=
  ∃ olds : List α, olds.length = n ∧ d = writes c a (olds.map fun o => (o, v))

/-- The positions `a, …, a+n-1` are set to `f 0, f 1, …`. -/
def OutFillWith (c : Cid) (a n : Nat) (f : Nat → Option α) (d : List (Ev α)) : Prop :=
  ∃ ps, ps.length = n ∧ d = writes c a ps ∧ ∀ j (hj : j < ps.length), f j = some (ps[j]).2

/-- The positions from `a` on are set to `f 0, f 1, …` until `f` panics. -/
def FailFillWith (c : Cid) (a n : Nat) (f : Nat → Option α) (d : List (Ev α)) : Prop :=
  ∃ ps, ps.length < n ∧ d = writes c a ps ∧ (∀ j (hj : j < ps.length), f j = some (ps[j]).2) ∧
    f ps.length = none

/-- A growth call received the positions `b, …, b+n-1` and initialised them, in this order, with the first `n` items. -/
def Grew (c : Cid) (items : List (Option α)) (n : Nat) (d : List (Ev α)) (b : Nat) : Prop :=
  ∃ vs rest, vs.length = n ∧ items = vs.map some ++ rest ∧ d = .reserve c b n :: pubs c b vs

/-- A growth call received `n` positions and initialised less than `n` of them, in order, with items. -/
def PartlyGrew (c : Cid) (items : List (Option α)) (n : Nat) (d : List (Ev α)) (b : Nat) : Prop :=
  ∃ vs, vs.length < n ∧ vs.map some <+: items ∧ d = .reserve c b n :: pubs c b vs

namespace Op

/-- The accesses `d` of call `c` explain that it returned `x`. Calls that go through the whole vector found at least `lo` elements. -/
def Explains (c : Cid) (lo : Nat) (d : List (Ev α)) (x : Ret α β) : Op α β → Prop
  | .push v => ∃ i, x = .nat i ∧ d = [.reserve c i 1, .publish c i v]
  | .pushForIdx f => ∃ i v, x = .nat i ∧ f i = some v ∧ d = [.reserve c i 1, .publish c i v]
  | .extend it => ∃ b, x = .nat b ∧ Grew c it.items it.hint d b
  | .extendN items n => ∃ b, x = .nat b ∧ Grew c items n d b
  | .extendForIdx f n => ∃ b it, x = .nat b ∧ f b = some it ∧ it.hint = n ∧ Grew c it.items n d b
  | .getCloned i => (∃ v, x = .optVal (some v) ∧ d = [.read c i v]) ∨ (x = .optVal none ∧ d = [])
  | .iterCloned | .cloneToVec => ∃ vs, lo ≤ vs.length ∧ x = .vals vs ∧ d = reads c 0 vs
  | .map f => ∃ n bs, lo ≤ n ∧ x = .betas bs ∧ OutMap c 0 n f d bs
  | .filter f => ∃ n l, lo ≤ n ∧ x = .elems l ∧ OutFilter c 0 n f d l
  | .fold f init => ∃ n b, lo ≤ n ∧ x = .beta b ∧ OutFold c 0 n f init d b
  | .visit f init => ∃ n b, lo ≤ n ∧ x = .beta b ∧ OutVisit c 0 n f init d b
  | .reduce f => ∃ n o, lo ≤ n ∧ x = .optVal o ∧ OutReduce c 0 n f d o
  | .indexOf veq t => ∃ n o, lo ≤ n ∧ x = .optNat o ∧ OutPosition c 0 n veq t d o
  | .contains veq t => ∃ n, ∃ o : Option Nat, lo ≤ n ∧ x = .bool o.isSome ∧ OutPosition c 0 n veq t d o
  | .eqList veq ts => ∃ n b, lo ≤ n ∧ x = .bool b ∧ OutEq c 0 n veq ts d b
  | .debug sh => ∃ vs, lo ≤ vs.length ∧ x = .str (debugText sh vs) ∧ d = reads c 0 vs
  | .swap _ i j => (i ≠ j ∧ x = .bool true ∧ d = [.swap c i j]) ∨ (x = .bool false ∧ d = [])
  | .fill v => ∃ n, lo ≤ n ∧ x = .unit ∧ OutFill c 0 n v d
  | .fillWith f => ∃ n, lo ≤ n ∧ x = .unit ∧ OutFillWith c 0 n f d
  | .elCloned e => ∃ v, x = .val v ∧ d = [.read c e v]
  | .elMap f e => ∃ v b, x = .beta b ∧ f v = some b ∧ d = [.read c e v]
  | .elReplace e v => ∃ old, x = .val old ∧ d = [.read c e old, .write c e old v]
  | .elSet e v => ∃ old, x = .unit ∧ d = [.write c e old v]
  | .elUpdate f e => ∃ old, x = .unit ∧ (f old).2 = true ∧ d = [.read c e old, .write c e old (f old).1]
  | .elEq veq t e => ∃ v, x = .bool (veq v t) ∧ d = [.read c e v]
  | .slGetCloned s i => (i < s.len ∧ ∃ v, x = .optVal (some v) ∧ d = [.read c (s.a + i) v]) ∨
      (s.len ≤ i ∧ x = .optVal none ∧ d = [])
  | .slIterCloned s => ∃ vs, x = .vals vs ∧ vs.length = s.len ∧ d = reads c s.a vs
  | .slMap s f => ∃ bs, x = .betas bs ∧ OutMap c s.a s.len f d bs
  | .slFilter s f => ∃ l, x = .elems l ∧ OutFilter c s.a s.len f d l
  | .slFold s f init => ∃ b, x = .beta b ∧ OutFold c s.a s.len f init d b
  | .slVisit s f init => ∃ b, x = .beta b ∧ OutVisit c s.a s.len f init d b
  | .slReduce s f => ∃ o, x = .optVal o ∧ OutReduce c s.a s.len f d o
  | .slIndexOf s veq t => ∃ o, x = .optNat o ∧ OutPosition c s.a s.len veq t d o
  | .slContains s veq t => ∃ o : Option Nat, x = .bool o.isSome ∧ OutPosition c s.a s.len veq t d o
  | .slEqList s veq ts => ∃ b, x = .bool b ∧ OutEq c s.a s.len veq ts d b
  | .slDebug s sh => ∃ vs, x = .str (debugText sh vs) ∧ vs.length = s.len ∧ d = reads c s.a vs
  | .slSwap _ s i j => (i < s.len ∧ j < s.len ∧ i ≠ j ∧ x = .bool true ∧ d = [.swap c (s.a + i) (s.a + j)]) ∨
      (x = .bool false ∧ d = [])
  | .slFill s v => x = .unit ∧ OutFill c s.a s.len v d
  | .slFillWith s f => x = .unit ∧ OutFillWith c s.a s.len f d
  | .deref e => ∃ v, x = .val v ∧ d = [.read c e v]
  | _ => d = []

/-- The accesses `d` of call `c` explain that it panicked. -/
def ExplainsPanic (c : Cid) (d : List (Ev α)) : Op α β → Prop
  | .push _ | .pushForIdx _ => ∃ i, d = [.reserve c i 1]
  | .extend it => ∃ b, PartlyGrew c it.items it.hint d b
  | .extendN items n => ∃ b, PartlyGrew c items n d b
  | .extendForIdx f n => ∃ b, d = [.reserve c b n] ∨ ∃ it, f b = some it ∧ it.hint = n ∧ PartlyGrew c it.items n d b
  | .map f => ∃ n, FailMap c 0 n f d
  | .filter f => ∃ n, FailMap c 0 n f d
  | .fold f init => ∃ n, FailFold c 0 n f init d
  | .visit f init => ∃ n, FailVisit c 0 n f init d
  | .reduce f => ∃ n, FailReduce c 0 n f d
  | .eqList veq ts => ∃ n, FailEq c 0 n veq ts d
  | .fillWith f => ∃ n, FailFillWith c 0 n f d
  | .elMap f e => ∃ v, f v = none ∧ d = [.read c e v]
  | .elUpdate f e => ∃ old, (f old).2 = false ∧ d = [.read c e old, .write c e old (f old).1]
  | .slMap s f => FailMap c s.a s.len f d
  | .slFilter s f => FailMap c s.a s.len f d
  | .slFold s f init => FailFold c s.a s.len f init d
  | .slVisit s f init => FailVisit c s.a s.len f init d
  | .slReduce s f => FailReduce c s.a s.len f d
  | .slEqList s veq ts => FailEq c s.a s.len veq ts d
  | .slFillWith s f => FailFillWith c s.a s.len f d
  | _ => d = []

/-- A growth call whose first position is `b` has the value `v` for its position number `k` (from 0). -/
def Offers (b k : Nat) (v : α) : Op α β → Prop
  | .push u => k = 0 ∧ v = u
  | .pushForIdx f => k = 0 ∧ f b = some v
  | .extend it => k < it.hint ∧ it.items[k]? = some (some v)
  | .extendN items n => k < n ∧ items[k]? = some (some v)
  | .extendForIdx f n => k < n ∧ ∃ it, f b = some it ∧ it.items[k]? = some (some v)
  | _ => False

end Op

end Verif
