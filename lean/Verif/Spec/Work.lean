import Verif.Spec.Progress

/-!
# How much a call does

Vocabulary of C57: the number of accesses to shared memory that a call makes, waiting aside.
-/

namespace Verif

variable {α β : Type}

/-- The number of accesses that suffice for `len()`, if `known` elements have been counted before and there is storage for `cap`:
two lengths, the capacity, the state of every further element, the new length. -/
def lenWork (known cap : Nat) : Nat := 4 + (cap - known)

/-- The number of accesses to shared memory that suffice for a call, not counting repetitions while it waits. -/
def Op.work (known cap : Nat) : Op α β → Nat
  -- the position, the maximum capacity, the capacity, perhaps four accesses for growing, the element
  | .push _ | .pushForIdx _ => 9
  | .extend it => 7 + 2 * it.hint
  | .extendN _ n | .extendForIdx _ n => 7 + 2 * n
  | .len | .isEmpty | .iter | .slice _ => lenWork known cap
  | .capacity | .maximumCapacity => 1
  | .get _ | .index _ => lenWork known cap + 1
  -- the reserved length, the capacity twice; lock, read, unlock
  | .getCloned _ => 6
  | .iterCloned | .map _ | .filter _ | .fold _ _ | .visit _ _ | .indexOf _ _ | .contains _ _ | .debug _ | .fill _ | .fillWith _ =>
      lenWork known cap + 3 * cap
  | .eqList _ vs => lenWork known cap + 3 * min cap vs.length
  -- these call `len` repeatedly, but elements that were counted are not counted again; a further `len` costs 5
  | .asSlice => lenWork known cap + 5
  | .reduce _ | .cloneToVec => lenWork known cap + 5 + 3 * cap
  | .splitAt _ => lenWork known cap + 2 * 5
  | .splitFirst | .splitLast => lenWork known cap + 2 * 5 + 1
  | .chunks k => lenWork known cap + ((cap + k - 1) / k) * 5
  | .getRaw _ _ => 4
  | .iterRef _ => 2 + cap
  -- `len`, the capacity and the lock for each of the two; the values, two unlocks
  | .swap _ _ _ | .slSwap _ _ _ _ => lenWork known cap + 5 + 2 * 2 + 3
  | .elCloned _ | .elMap _ _ | .elSet _ _ | .elEq _ _ _ => 3
  | .elReplace _ _ | .elUpdate _ _ => 4
  | .slLen _ | .slIsEmpty _ | .slIter _ | .slSlice _ _ | .slSplitAt _ _ | .slChunks _ _ => 0
  | .slGet _ _ | .slIndex _ _ | .slSplitFirst _ | .slSplitLast _ => 1
  | .slGetCloned _ _ => 4
  | .slIterCloned s | .slMap s _ | .slFilter s _ | .slFold s _ _ | .slVisit s _ _ | .slReduce s _ | .slIndexOf s _ _
  | .slContains s _ _ | .slDebug s _ | .slFill s _ | .slFillWith s _ => 3 * s.len
  | .slEqList s _ vs => 3 * min s.len vs.length
  | .slGetRaw _ _ _ => 4
  | .slIterRef s _ => s.len
  | .deref _ => 1

/-- The function may have to wait for others: for an element that somebody accesses, or for storage that somebody allocates. -/
def Op.MayWait : Op α β → Prop
  | .push _ | .pushForIdx _ | .extend _ | .extendN _ _ | .extendForIdx _ _ => True
  | .swap .tryOnce _ _ | .slSwap .tryOnce _ _ _ => False
  | op => op.Locks

/-- At moment `t` call `c` gets ahead: it makes an access that is not merely waiting, or it ends. -/
def Progresses (κ : Nat → Cfg α β) (c : Cid) (t : Nat) : Prop :=
  (∃ op, (κ t).Running c op) ∧ (κ (t + 1)).calls c ≠ (κ t).calls c

end Verif
