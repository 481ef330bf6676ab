import Verif.Model.Vec

/-!
# The API as a data type

One constructor per public function callable on a shared vector / slice / element, with its program.
`el…` are methods of an element reference (its position is the first argument), `sl…` methods of a slice.
-/

namespace Verif

/-- Results of API calls. -/
inductive Ret (α β : Type) where
  | unit
  | nat (n : Nat)
  | bool (b : Bool)
  | str (s : String)
  | val (v : α)
  | optVal (o : Option α)
  | vals (l : List α)
  | beta (b : β)
  | betas (l : List β)
  | optNat (o : Option Nat)
  /-- `Option<&ConcurrentElement<T>>` -/
  | elem (o : Option Nat)
  /-- `&ConcurrentElement<T>` -/
  | elem1 (e : Nat)
  /-- an iterator of element references, consumed -/
  | elems (l : List Nat)
  | slc (s : Slc)
  | slc2 (s t : Slc)
  | slcs (l : List Slc)
  | elemSlc (o : Option (Nat × Slc))
  /-- raw pointer or reference to the value of a position -/
  | ptr (o : Option Nat)
  | ptrs (l : List Nat)

/-- Positions of the elements a result gives access to. -/
def Ret.elements {α β : Type} : Ret α β → List Nat
  | .elem o => o.toList
  | .elem1 e => [e]
  | .elems l => l
  | .slc s => positions s.a s.len
  | .slc2 s t => positions s.a s.len ++ positions t.a t.len
  | .slcs l => l.flatMap (fun s => positions s.a s.len)
  | .elemSlc (some (e, s)) => e :: positions s.a s.len
  | _ => []

/-- Positions to whose value a result contains a pointer. -/
def Ret.pointers {α β : Type} : Ret α β → List Nat
  | .ptr o => o.toList
  | .ptrs l => l
  | _ => []

/-- API calls. `β` is the result type of user closures. -/
inductive Op (α β : Type) where
  -- growth
  | push (v : α)
  | pushForIdx (f : Nat → Option α)
  | extend (it : Iter α)
  | extendN (items : List (Option α)) (n : Nat)
  | extendForIdx (f : Nat → Option (Iter α)) (n : Nat)
  -- queries
  | len
  | isEmpty
  | capacity
  | maximumCapacity
  | get (i : Nat)
  | index (i : Nat)
  | getCloned (i : Nat)
  | iter
  | iterCloned
  | map (f : α → Option β)
  | filter (f : α → Option Bool)
  | fold (f : β → α → Option β) (init : β)
  | visit (f : β → α → Option (β × Bool)) (init : β)
  | reduce (f : α → α → Option α)
  | indexOf (veq : α → α → Bool) (v : α)
  | contains (veq : α → α → Bool) (v : α)
  | cloneToVec
  | eqList (veq : α → α → Option Bool) (vs : List α)
  | debug (show' : α → String)
  | slice (r : Rng)
  | asSlice
  | splitAt (mid : Nat)
  | splitFirst
  | splitLast
  | chunks (k : Nat)
  | getRaw (o : MOrd) (i : Nat)
  | iterRef (o : MOrd)
  -- mutation of elements through the vector
  | swap (m : MutMode) (i j : Nat)
  | fill (v : α)
  | fillWith (f : Nat → Option α)
  -- element methods
  | elCloned (e : Nat)
  | elMap (f : α → Option β) (e : Nat)
  | elReplace (e : Nat) (v : α)
  | elSet (e : Nat) (v : α)
  | elUpdate (f : α → α × Bool) (e : Nat)
  | elEq (veq : α → α → Bool) (v : α) (e : Nat)
  -- slice methods
  | slLen (s : Slc)
  | slIsEmpty (s : Slc)
  | slGet (s : Slc) (i : Nat)
  | slIndex (s : Slc) (i : Nat)
  | slGetCloned (s : Slc) (i : Nat)
  | slIter (s : Slc)
  | slIterCloned (s : Slc)
  | slMap (s : Slc) (f : α → Option β)
  | slFilter (s : Slc) (f : α → Option Bool)
  | slFold (s : Slc) (f : β → α → Option β) (init : β)
  | slVisit (s : Slc) (f : β → α → Option (β × Bool)) (init : β)
  | slReduce (s : Slc) (f : α → α → Option α)
  | slIndexOf (s : Slc) (veq : α → α → Bool) (v : α)
  | slContains (s : Slc) (veq : α → α → Bool) (v : α)
  | slEqList (s : Slc) (veq : α → α → Option Bool) (vs : List α)
  | slDebug (s : Slc) (show' : α → String)
  | slSlice (s : Slc) (r : Rng)
  | slSplitAt (s : Slc) (mid : Nat)
  | slSplitFirst (s : Slc)
  | slSplitLast (s : Slc)
  | slChunks (s : Slc) (k : Nat)
  | slGetRaw (s : Slc) (o : MOrd) (i : Nat)
  | slIterRef (s : Slc) (o : MOrd)
  | slSwap (m : MutMode) (s : Slc) (i j : Nat)
  | slFill (s : Slc) (v : α)
  | slFillWith (s : Slc) (f : Nat → Option α)
  /-- not a function of the crate: user code reading through a pointer / reference obtained from
  `get_raw`, `get_ref`, `iter_ref`, `get_raw_mut`, … (`src/unsafe_api.rs:13-41,130-157`) -/
  | deref (e : Nat)

namespace Op

variable {α β : Type}

/-- Positions of the elements which the caller must have a reference to. -/
def needs : Op α β → List Nat
  | .elCloned e | .elMap _ e | .elReplace e _ | .elSet e _ | .elUpdate _ e | .elEq _ _ e => [e]
  | .slLen s | .slIsEmpty s | .slGet s _ | .slIndex s _ | .slGetCloned s _ | .slIter s | .slIterCloned s
  | .slMap s _ | .slFilter s _ | .slFold s _ _ | .slVisit s _ _ | .slReduce s _ | .slIndexOf s _ _
  | .slContains s _ _
  | .slEqList s _ _ | .slDebug s _ | .slSlice s _ | .slSplitAt s _ | .slSplitFirst s | .slSplitLast s
  | .slChunks s _ | .slGetRaw s _ _ | .slIterRef s _ | .slSwap _ s _ _ | .slFill s _ | .slFillWith s _ =>
      positions s.a s.len
  | _ => []

/-- Positions the caller must have a pointer to. -/
def needsPtr : Op α β → List Nat
  | .deref e => [e]
  | _ => []

/-- The program of an API call: the function of `Model/Vec.lean`, with its result wrapped. -/
def prog : Op α β → Prog α (Ret α β)
  | .push v => .nat <$> CVec.push v
  | .pushForIdx f => .nat <$> CVec.pushForIdx f
  | .extend it => .nat <$> CVec.extend it
  | .extendN items n => .nat <$> CVec.extendN items n
  | .extendForIdx f n => .nat <$> CVec.extendForIdx f n
  | .len => .nat <$> CVec.len
  | .isEmpty => .bool <$> CVec.isEmpty
  | .capacity => .nat <$> CVec.capacity
  | .maximumCapacity => .nat <$> CVec.maximumCapacity
  | .get i => .elem <$> CVec.get i
  | .index i => .elem1 <$> CVec.index i
  | .getCloned i => .optVal <$> CVec.getCloned i
  | .iter => .elems <$> CVec.iter
  | .iterCloned => .vals <$> CVec.iterCloned
  | .map f => .betas <$> CVec.map f
  | .filter f => .elems <$> CVec.filter f
  | .fold f init => .beta <$> CVec.fold f init
  | .visit f init => .beta <$> CVec.visit f init
  | .reduce f => .optVal <$> CVec.reduce f
  | .indexOf veq v => .optNat <$> CVec.indexOf veq v
  | .contains veq v => .bool <$> CVec.contains veq v
  | .cloneToVec => .vals <$> CVec.cloneToVec
  | .eqList veq vs => .bool <$> CVec.eqList veq vs
  | .debug s => .str <$> CVec.debug s
  | .slice r => .slc <$> CVec.slice r
  | .asSlice => .slc <$> CVec.asSlice
  | .splitAt mid => (fun p => .slc2 p.1 p.2) <$> CVec.splitAt mid
  | .splitFirst => .elemSlc <$> CVec.splitFirst
  | .splitLast => .elemSlc <$> CVec.splitLast
  | .chunks k => .slcs <$> CVec.chunks k
  | .getRaw o i => .ptr <$> CVec.getRaw o i
  | .iterRef o => .ptrs <$> CVec.iterRef o
  | .swap m i j => .bool <$> CVec.swap m i j
  | .fill v => (fun _ => .unit) <$> CVec.fill v
  | .fillWith f => (fun _ => .unit) <$> CVec.fillWith f
  | .elCloned e => .val <$> Elem.cloned e
  | .elMap f e => .beta <$> Elem.map f e
  | .elReplace e v => .val <$> Elem.replace e v
  | .elSet e v => (fun _ => .unit) <$> Elem.set e v
  | .elUpdate f e => (fun _ => .unit) <$> Elem.update f e
  | .elEq veq v e => .bool <$> Elem.eqVal veq v e
  | .slLen s => pure (.nat s.len)
  | .slIsEmpty s => pure (.bool s.isEmpty)
  | .slGet s i => .elem <$> s.get i
  | .slIndex s i => .elem1 <$> s.index i
  | .slGetCloned s i => .optVal <$> s.getCloned i
  | .slIter s => pure (.elems s.iter)
  | .slIterCloned s => .vals <$> s.iterCloned
  | .slMap s f => .betas <$> s.map f
  | .slFilter s f => .elems <$> s.filter f
  | .slFold s f init => .beta <$> s.fold f init
  | .slVisit s f init => .beta <$> s.visit f init
  | .slReduce s f => .optVal <$> s.reduce f
  | .slIndexOf s veq v => .optNat <$> s.indexOf veq v
  | .slContains s veq v => .bool <$> s.contains veq v
  | .slEqList s veq vs => .bool <$> s.eqList veq vs
  | .slDebug s sh => .str <$> s.debug sh
  | .slSlice s r => pure (.slc (s.slice r))
  | .slSplitAt s mid => (fun p => .slc2 p.1 p.2) <$> s.splitAt mid
  | .slSplitFirst s => .elemSlc <$> s.splitFirst
  | .slSplitLast s => .elemSlc <$> s.splitLast
  | .slChunks s k => .slcs <$> s.chunks k
  | .slGetRaw s o i => .ptr <$> s.getRaw o i
  | .slIterRef s o => .ptrs <$> s.iterRef o
  | .slSwap m s i j => .bool <$> s.swap m i j
  | .slFill s v => (fun _ => .unit) <$> s.fill v
  | .slFillWith s f => (fun _ => .unit) <$> s.fillWith f
  | .deref e => .val <$> act (.valRead e)

end Op

end Verif
