import Verif.Spec.Views

/-!
# The operations on a plain list

What each API function does if the vector were a plain list: `Op.next` is the content afterwards, `Op.Gives` the result.
An element reference is the index of the element, a slice is the list of the indices it views.
Nothing here refers to the programs of the API functions.
-/

namespace Verif

variable {α β : Type}

/-- The values a slice views. -/
def Slc.of (s : Slc) (l : List α) : List α := (l.drop s.a).take s.len

/-- Exchange the entries `i` and `j`. -/
def swapAt (l : List α) (i j : Nat) : List α :=
  match l[i]?, l[j]? with
  | some a, some b => (l.set i b).set j a
  | _, _ => l

/-- Replace the entries by `f k, f (k + 1), …` until the closure panics. -/
def filled (f : Nat → Option α) : Nat → List α → List α
  | _, [] => []
  | k, x :: xs => match f k with
    | some v => v :: filled f (k + 1) xs
    | none => x :: xs

/-- The list with the part viewed by the slice replaced. -/
def Slc.put (s : Slc) (l xs : List α) : List α := l.take s.a ++ xs ++ l.drop (s.a + s.len)

/-- The values of an iterator that does not panic. -/
def itemsOf (items : List (Option α)) : List α := items.filterMap id

/-- Content after the operation. -/
def Op.next : Op α β → List α → List α
  | .push v, l => l ++ [v]
  | .pushForIdx f, l => l ++ (f l.length).toList
  | .extend it, l => l ++ itemsOf (it.items.take it.hint)
  | .extendN items n, l => l ++ itemsOf (items.take n)
  | .extendForIdx f n, l => match f l.length with
    | some it => l ++ itemsOf (it.items.take n)
    | none => l
  | .swap _ i j, l => swapAt l i j
  | .fill v, l => List.replicate l.length v
  | .fillWith f, l => filled f 0 l
  | .elReplace e v, l | .elSet e v, l => l.set e v
  | .elUpdate f e, l => l.modify e fun v => (f v).1
  | .slSwap _ s i j, l => s.put l (swapAt (s.of l) i j)
  | .slFill s v, l => s.put l (List.replicate s.len v)
  | .slFillWith s f, l => s.put l (filled f 0 (s.of l))
  | _, l => l

/-- A result computed by closures of the user; `none`: a closure panicked. -/
def closure {γ ρ : Type} (o : Option γ) (f : γ → ρ) : Except PanicKind ρ :=
  match o with
  | some b => .ok (f b)
  | none => .error .userCode

/-- The positions among `ps` whose value satisfies `f`. -/
def chosen (f : α → Option Bool) (vs : List α) (ps : List Nat) : List Nat :=
  ((vs.zip ps).filter fun p => f p.1 == some true).map Prod.snd

/-- Left fold starting with the first value. -/
def reduced (f : α → α → Option α) : List α → Option (Option α)
  | [] => some none
  | v :: vs => (vs.foldlM f v).map some

/-- A loop over a list with a state, which may be left early. -/
def looped (f : β → α → Option (β × Bool)) : β → List α → Option β
  | b, [] => some b
  | b, v :: vs =>
    match f b v with
    | none => none
    | some (b', true) => looped f b' vs
    | some (b', false) => some b'

/-- Equality of lists up to the user's `PartialEq`, from left to right; `none`: the user's code panics. -/
def equalLists (veq : α → α → Option Bool) : List α → List α → Option Bool
  | [], [] => some true
  | v :: vs, t :: ts =>
    match veq v t with
    | some true => equalLists veq vs ts
    | some false => some false
    | none => none
  | _, _ => some false

/-- `Debug` of a list. -/
def shown (show' : α → String) (vs : List α) : String := "[" ++ ", ".intercalate (vs.map show') ++ "]"

/-- Result of the operation on a vector with the content `l`. -/
def Op.Gives : Op α β → List α → Except PanicKind (Ret α β) → Prop
  | .push _, l, x | .pushForIdx _, l, x | .extend _, l, x | .extendN _ _, l, x | .extendForIdx _ _, l, x
  | .len, l, x => x = .ok (.nat l.length)
  | .isEmpty, l, x => x = .ok (.bool l.isEmpty)
  | .capacity, l, x | .maximumCapacity, l, x => ∃ c, x = .ok (.nat c) ∧ l.length ≤ c
  | .get i, l, x => x = .ok (.elem (List.range l.length)[i]?)
  | .index i, l, x => x = if i < l.length then .ok (.elem1 i) else .error .outOfBounds
  | .getCloned i, l, x => x = .ok (.optVal l[i]?)
  | .iter, l, x => x = .ok (.elems (List.range l.length))
  | .iterCloned, l, x | .cloneToVec, l, x => x = .ok (.vals l)
  | .map f, l, x => x = closure (l.mapM f) .betas
  | .filter f, l, x => x = if ∀ v ∈ l, (f v).isSome then .ok (.elems (chosen f l (List.range l.length))) else .error .userCode
  | .fold f b, l, x => x = closure (l.foldlM f b) .beta
  | .visit f b, l, x => x = closure (looped f b l) .beta
  | .reduce f, l, x => x = closure (reduced f l) .optVal
  | .indexOf veq t, l, x => x = .ok (.optNat (l.findIdx? fun v => veq v t))
  | .contains veq t, l, x => x = .ok (.bool (l.any fun v => veq v t))
  | .eqList veq ts, l, x => x = closure (equalLists veq l ts) .bool
  | .debug sh, l, x => x = .ok (.str (shown sh l))
  | .slice r, l, x => ∃ s, x = .ok (.slc s) ∧ s.view = pick r (List.range l.length)
  | .asSlice, l, x => ∃ s, x = .ok (.slc s) ∧ s.view = List.range l.length
  | .splitAt mid, l, x =>
      if mid ≤ l.length then ∃ s t, x = .ok (.slc2 s t) ∧ s.view = (List.range l.length).take mid ∧
        t.view = (List.range l.length).drop mid
      else x = .error .splitMid
  | .splitFirst, l, x => ∃ o, x = .ok (.elemSlc o) ∧ match o with
      | none => l = []
      | some (e, s) => List.range l.length = e :: s.view
  | .splitLast, l, x => ∃ o, x = .ok (.elemSlc o) ∧ match o with
      | none => l = []
      | some (e, s) => List.range l.length = s.view ++ [e]
  | .chunks k, l, x => if 0 < k then ∃ ss, x = .ok (.slcs ss) ∧ Chunked k (List.range l.length) ss else x = .error .chunkZero
  | .getRaw _ i, l, x => x = .ok (.ptr (List.range l.length)[i]?)
  | .iterRef _, l, x => x = .ok (.ptrs (List.range l.length))
  | .swap _ i j, l, x => x = .ok (.bool (decide (i < l.length ∧ j < l.length)))
  | .fill _, _, x => x = .ok .unit
  | .fillWith f, l, x => x = if ∀ k, k < l.length → (f k).isSome then .ok .unit else .error .userCode
  | .elCloned e, l, x | .elReplace e _, l, x | .deref e, l, x => ∃ v, l[e]? = some v ∧ x = .ok (.val v)
  | .elMap f e, l, x => ∃ v, l[e]? = some v ∧ x = closure (f v) .beta
  | .elSet _ _, _, x => x = .ok .unit
  | .elUpdate f e, l, x => ∃ v, l[e]? = some v ∧ x = if (f v).2 then .ok .unit else .error .userCode
  | .elEq veq t e, l, x => ∃ v, l[e]? = some v ∧ x = .ok (.bool (veq v t))
  | .slLen s, _, x => x = .ok (.nat s.view.length)
  | .slIsEmpty s, _, x => x = .ok (.bool s.view.isEmpty)
  | .slGet s i, _, x => x = .ok (.elem s.view[i]?)
  | .slIndex s i, _, x => x = match s.view[i]? with
      | some p => .ok (.elem1 p)
      | none => .error .outOfBounds
  | .slGetCloned s i, l, x => x = .ok (.optVal (s.of l)[i]?)
  | .slIter s, _, x => x = .ok (.elems s.view)
  | .slIterCloned s, l, x => x = .ok (.vals (s.of l))
  | .slMap s f, l, x => x = closure ((s.of l).mapM f) .betas
  | .slFilter s f, l, x => x = if ∀ v ∈ s.of l, (f v).isSome then .ok (.elems (chosen f (s.of l) s.view)) else .error .userCode
  | .slFold s f b, l, x => x = closure ((s.of l).foldlM f b) .beta
  | .slVisit s f b, l, x => x = closure (looped f b (s.of l)) .beta
  | .slReduce s f, l, x => x = closure (reduced f (s.of l)) .optVal
  | .slIndexOf s veq t, l, x => x = .ok (.optNat ((s.of l).findIdx? fun v => veq v t))
  | .slContains s veq t, l, x => x = .ok (.bool ((s.of l).any fun v => veq v t))
  | .slEqList s veq ts, l, x => x = closure (equalLists veq (s.of l) ts) .bool
  | .slDebug s sh, l, x => x = .ok (.str (shown sh (s.of l)))
  | .slSlice s r, _, x => ∃ t, x = .ok (.slc t) ∧ t.view = pick r s.view
  | .slSplitAt s mid, _, x =>
      if mid ≤ s.view.length then ∃ t u, x = .ok (.slc2 t u) ∧ t.view = s.view.take mid ∧ u.view = s.view.drop mid
      else x = .error .splitMid
  | .slSplitFirst s, _, x => ∃ o, x = .ok (.elemSlc o) ∧ match o with
      | none => s.view = []
      | some (e, t) => s.view = e :: t.view
  | .slSplitLast s, _, x => ∃ o, x = .ok (.elemSlc o) ∧ match o with
      | none => s.view = []
      | some (e, t) => s.view = t.view ++ [e]
  | .slChunks s k, _, x => if 0 < k then ∃ ss, x = .ok (.slcs ss) ∧ Chunked k s.view ss else x = .error .chunkZero
  | .slGetRaw s _ i, _, x => x = .ok (.ptr s.view[i]?)
  | .slIterRef s _, _, x => x = .ok (.ptrs s.view)
  | .slSwap _ s i j, _, x => x = .ok (.bool (decide (i < s.view.length ∧ j < s.view.length)))
  | .slFill _ _, _, x => x = .ok .unit
  | .slFillWith s f, _, x => x = if ∀ k, k < s.view.length → (f k).isSome then .ok .unit else .error .userCode

/-- The iterator yields at least `n` items without panicking. -/
def Yields (items : List (Option α)) (n : Nat) : Prop := n ≤ items.length ∧ ∀ o ∈ items.take n, o.isSome

/-- The operation is one that a plain list can follow: growth stays within the maximum capacity `mx`, and the closures and
iterators it stores elements from do not panic and are truthful about their length (otherwise positions without a value
remain, C23); no position is swapped with itself (which never returns, C21). -/
def Op.Fits : Op α β → List α → Nat → Prop
  | .push _, l, mx => l.length + 1 ≤ mx
  | .pushForIdx f, l, mx => l.length + 1 ≤ mx ∧ (f l.length).isSome
  | .extend it, l, mx => l.length + it.hint ≤ mx ∧ Yields it.items it.hint
  | .extendN items n, l, mx => l.length + n ≤ mx ∧ Yields items n
  | .extendForIdx f n, l, mx => l.length + n ≤ mx ∧ ∃ it, f l.length = some it ∧ it.hint = n ∧ Yields it.items n
  | .swap _ i j, l, _ => i < l.length → i ≠ j
  | .slSwap _ s i j, _, _ => i < s.view.length → i ≠ j
  | _, _, _ => True

/-- Content after a sequence of operations. -/
def contentAfter (l : List α) (ops : List (Op α β)) : List α := ops.foldl (fun l op => op.next l) l

end Verif
