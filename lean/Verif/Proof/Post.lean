import Verif.Proof.Loops

/-!
# What each API call does: outcome of a return, of a panic, permitted events

Helper file (no property statements): `Outcome`, `Failure`, `allows` are intermediate specifications used to
connect the programs to the properties.
-/

namespace Verif

variable {α β : Type}

/-- The positions below `n` were initialised before the first data event of `c`. -/
def Early (c : Cid) (w0 : World α) (n : Nat) (w : World α) : Prop :=
  ∃ u u', w.trace = w0.trace ++ u ++ u' ∧ dataOf c (w0.trace ++ u) = [] ∧
    ∀ i, i < n → ((u.foldl specNext w0.spec).val i).isSome

theorem Early.of {σ₀ : SpecSt α} {c : Cid} {w0 w1 w : World α} {n : Nat} {L U : Nat → Prop} {g : Prop} (hI0 : Inv σ₀ w0)
    (hI1 : Inv σ₀ w1) (hL : Loc c w0 L U [] g w1) (he : Evolves w1 w) (hp : ∀ i, i < n → (w1.spec.val i).isSome) :
    Early c w0 n w := by
  obtain ⟨u, hu⟩ := hL.ev.trace
  obtain ⟨u', hu'⟩ := he.trace
  have hre : ∀ {t : List (Ev α)} {σ : SpecSt α}, Replay σ₀ t σ → σ = t.foldl specNext σ₀ := by
    intro t σ h
    induction h with
    | nil => rfl
    | snoc _ _ ih => rw [List.foldl_append, ← ih]; rfl
  refine ⟨u, u', by rw [hu, hu'], by rw [hu]; exact hL.data, fun i hi => ?_⟩
  have := hp i hi
  rwa [hre hI1.replay, ← hu, List.foldl_append, ← hre hI0.replay] at this

def OutGrow (c : Cid) (w0 : World α) (items : List (Option α)) (n : Nat) (d : List (Ev α)) (b : Nat) : Prop :=
  w0.spec.len ≤ b ∧ ∃ vs rest, vs.length = n ∧ items = vs.map some ++ rest ∧ d = .reserve c b n :: pubs c b vs

def FailGrow (c : Cid) (w0 w : World α) (items : List (Option α)) (n : Nat) (U : Nat → Prop) (d : List (Ev α))
    (k : PanicKind) (b : Nat) : Prop :=
  w0.spec.len ≤ b ∧ 0 < n ∧
  ∃ vs, d = .reserve c b n :: pubs c b vs ∧ vs.length < n ∧ (∀ i, U i ↔ b + vs.length ≤ i ∧ i < b + n) ∧
    ((k = .maxCapacity ∧ vs = [] ∧ w.mem.maxCap < b + n) ∨
     (k = .iterTooShort ∧ b + n ≤ w.mem.cap ∧ items = vs.map some) ∨
     (k = .userCode ∧ b + n ≤ w.mem.cap ∧ ∃ rest, items = vs.map some ++ none :: rest))

/-! ## API -/

namespace Op

/-- Outcome of a call that returned: started in `w0`, data events `d`, result `r`, world `w`. -/
def Outcome (c : Cid) (w0 w : World α) (d : List (Ev α)) (r : Ret α β) : Op α β → Prop
  | .push v => ∃ i, w0.spec.len ≤ i ∧ r = .nat i ∧ d = [.reserve c i 1, .publish c i v]
  | .pushForIdx f => ∃ i v, w0.spec.len ≤ i ∧ r = .nat i ∧ f i = some v ∧ d = [.reserve c i 1, .publish c i v]
  | .extend it => ∃ b, r = .nat b ∧ OutGrow c w0 it.items it.hint d b
  | .extendN items n => ∃ b, r = .nat b ∧ OutGrow c w0 items n d b
  | .extendForIdx f n => ∃ b it, r = .nat b ∧ f b = some it ∧ it.hint = n ∧ OutGrow c w0 it.items n d b
  | .len => ∃ n, LenOK c w0 n w ∧ r = .nat n ∧ d = []
  | .isEmpty => ∃ n, LenOK c w0 n w ∧ r = .bool (n == 0) ∧ d = []
  | .capacity => ∃ n, w0.mem.cap ≤ n ∧ n ≤ w.mem.cap ∧ r = .nat n ∧ d = []
  | .maximumCapacity => r = .nat w.mem.maxCap ∧ d = []
  | .get i => ∃ n, LenOK c w0 n w ∧ r = .elem (if i < n then some i else none) ∧ d = []
  | .index i => ∃ n, LenOK c w0 n w ∧ i < n ∧ r = .elem1 i ∧ d = []
  | .getCloned i => (∃ v, r = .optVal (some v) ∧ d = [.read c i v]) ∨
      (r = .optVal none ∧ d = [] ∧ w0.spec.val i = none)
  | .iter => ∃ n, LenOK c w0 n w ∧ r = .elems (List.range n) ∧ d = []
  | .iterCloned | .cloneToVec => ∃ n vs, LenOK c w0 n w ∧ r = .vals vs ∧ vs.length = n ∧ d = reads c 0 vs
  | .map f => ∃ n bs, LenOK c w0 n w ∧ r = .betas bs ∧ OutMap c 0 n f d bs
  | .filter f => ∃ n l, LenOK c w0 n w ∧ r = .elems l ∧ OutFilter c 0 n f d l
  | .fold f init => ∃ n b, LenOK c w0 n w ∧ r = .beta b ∧ OutFold c 0 n f init d b
  | .visit f init => ∃ n b, LenOK c w0 n w ∧ r = .beta b ∧ OutVisit c 0 n f init d b
  | .reduce f => ∃ n o, LenOK c w0 n w ∧ r = .optVal o ∧ OutReduce c 0 n f d o
  | .indexOf veq t => ∃ n o, LenOK c w0 n w ∧ r = .optNat o ∧ OutPosition c 0 n veq t d o
  | .contains veq t => ∃ n o, LenOK c w0 n w ∧ r = .bool o.isSome ∧ OutPosition c 0 n veq t d o
  | .eqList veq ts => ∃ n b, LenOK c w0 n w ∧ r = .bool b ∧ OutEq c 0 n veq ts d b
  | .debug sh => ∃ n vs, LenOK c w0 n w ∧ r = .str (debugText sh vs) ∧ vs.length = n ∧ d = reads c 0 vs
  | .slice rg => ∃ n, LenOK c w0 n w ∧
      r = .slc ⟨(rangeLimits rg n).1, (rangeLimits rg n).2 - (rangeLimits rg n).1⟩ ∧ d = []
  | .asSlice => ∃ n, LenOK c w0 n w ∧ r = .slc ⟨0, n⟩ ∧ d = []
  | .splitAt mid => ∃ n, LenOK c w0 n w ∧ mid ≤ n ∧ r = .slc2 ⟨0, mid⟩ ⟨mid, n - mid⟩ ∧ d = []
  | .splitFirst => d = [] ∧ ((LenOK c w0 0 w ∧ r = .elemSlc none) ∨
      ∃ n, LenOK c w0 n w ∧ 0 < n ∧ r = .elemSlc (some (0, ⟨1, n - 1⟩)))
  | .splitLast => d = [] ∧ ((LenOK c w0 0 w ∧ r = .elemSlc none) ∨
      ∃ n, LenOK c w0 n w ∧ 0 < n ∧ r = .elemSlc (some (n - 1, ⟨0, n - 1⟩)))
  | .chunks k => ∃ n, LenOK c w0 n w ∧ 0 < k ∧ d = [] ∧
      r = .slcs ((List.range (numChunks n k)).map fun i => (⟨0, n⟩ : Slc).slice (chunkRange n k i))
  | .getRaw _ i => d = [] ∧ ((r = .ptr (some i) ∧ (w.spec.val i).isSome) ∨
      (r = .ptr none ∧ (w0.spec.val i = none ∨ ∃ d', Ev.busy c i d' ∈ w.trace)))
  | .iterRef _ => d = [] ∧ ∃ n l, r = .ptrs l ∧ RawOK c w0 0 n l w ∧ ∀ i, n ≤ i → w0.spec.val i = none
  | .swap m i j => (∃ n, LenOK c w0 n w ∧ i < n ∧ j < n ∧ i ≠ j ∧ r = .bool true ∧ d = [.swap c i j]) ∨
      (r = .bool false ∧ d = [] ∧ ((∃ n, LenOK c w0 n w ∧ (n ≤ i ∨ n ≤ j)) ∨ m = .tryOnce))
  | .fill v => ∃ n, LenOK c w0 n w ∧ r = .unit ∧ OutFill c 0 n v d ∧ Early c w0 n w
  | .fillWith f => ∃ n, LenOK c w0 n w ∧ r = .unit ∧ OutFillWith c 0 n f d ∧ Early c w0 n w
  | .elCloned e => ∃ v, r = .val v ∧ d = [.read c e v]
  | .elMap f e => ∃ v b, r = .beta b ∧ f v = some b ∧ d = [.read c e v]
  | .elReplace e v => ∃ old, r = .val old ∧ d = [.read c e old, .write c e old v]
  | .elSet e v => ∃ old, r = .unit ∧ d = [.write c e old v]
  | .elUpdate f e => ∃ old, r = .unit ∧ (f old).2 = true ∧ d = [.read c e old, .write c e old (f old).1]
  | .elEq veq t e => ∃ v, r = .bool (veq v t) ∧ d = [.read c e v]
  | .slLen s => r = .nat s.len ∧ d = []
  | .slIsEmpty s => r = .bool (s.len == 0) ∧ d = []
  | .slGet s i => r = .elem (if i < s.len then some (s.a + i) else none) ∧ d = []
  | .slIndex s i => i < s.len ∧ r = .elem1 (s.a + i) ∧ d = []
  | .slGetCloned s i => (i < s.len ∧ ∃ v, r = .optVal (some v) ∧ d = [.read c (s.a + i) v]) ∨
      (s.len ≤ i ∧ r = .optVal none ∧ d = [])
  | .slIter s => r = .elems (List.range' s.a s.len) ∧ d = []
  | .slIterCloned s => ∃ vs, r = .vals vs ∧ vs.length = s.len ∧ d = reads c s.a vs
  | .slMap s f => ∃ bs, r = .betas bs ∧ OutMap c s.a s.len f d bs
  | .slFilter s f => ∃ l, r = .elems l ∧ OutFilter c s.a s.len f d l
  | .slFold s f init => ∃ b, r = .beta b ∧ OutFold c s.a s.len f init d b
  | .slVisit s f init => ∃ b, r = .beta b ∧ OutVisit c s.a s.len f init d b
  | .slReduce s f => ∃ o, r = .optVal o ∧ OutReduce c s.a s.len f d o
  | .slIndexOf s veq t => ∃ o, r = .optNat o ∧ OutPosition c s.a s.len veq t d o
  | .slContains s veq t => ∃ o : Option Nat, r = .bool o.isSome ∧ OutPosition c s.a s.len veq t d o
  | .slEqList s veq ts => ∃ b, r = .bool b ∧ OutEq c s.a s.len veq ts d b
  | .slDebug s sh => ∃ vs, r = .str (debugText sh vs) ∧ vs.length = s.len ∧ d = reads c s.a vs
  | .slSlice s rg => r = .slc (s.slice rg) ∧ d = []
  | .slSplitAt s mid => mid ≤ s.len ∧ r = .slc2 ⟨s.a, mid⟩ ⟨s.a + mid, s.len - mid⟩ ∧ d = []
  | .slSplitFirst s => d = [] ∧ ((s.len = 0 ∧ r = .elemSlc none) ∨
      (0 < s.len ∧ r = .elemSlc (some (s.a, ⟨s.a + 1, s.len - 1⟩))))
  | .slSplitLast s => d = [] ∧ ((s.len = 0 ∧ r = .elemSlc none) ∨
      (0 < s.len ∧ r = .elemSlc (some (s.a + (s.len - 1), ⟨s.a, s.len - 1⟩))))
  | .slChunks s k => 0 < k ∧ d = [] ∧
      r = .slcs ((List.range (numChunks s.len k)).map fun i => s.slice (chunkRange s.len k i))
  | .slGetRaw s _ i => d = [] ∧ ((i < s.len ∧ r = .ptr (some (s.a + i)) ∧ (w.spec.val (s.a + i)).isSome) ∨
      (r = .ptr none ∧ (s.len ≤ i ∨ ∃ d', Ev.busy c (s.a + i) d' ∈ w.trace)))
  | .slIterRef s _ => d = [] ∧ ∃ l, r = .ptrs l ∧ RawOK c w0 s.a s.len l w
  | .slSwap m s i j =>
      (i < s.len ∧ j < s.len ∧ i ≠ j ∧ r = .bool true ∧ d = [.swap c (s.a + i) (s.a + j)]) ∨
      (r = .bool false ∧ d = [] ∧ (s.len ≤ i ∨ s.len ≤ j ∨
        (∃ n, LenOK c w0 n w ∧ (n ≤ s.a + i ∨ n ≤ s.a + j)) ∨ m = .tryOnce))
  | .slFill s v => r = .unit ∧ OutFill c s.a s.len v d
  | .slFillWith s f => r = .unit ∧ OutFillWith c s.a s.len f d
  | .deref e => ∃ v, r = .val v ∧ d = [.read c e v]

/-- Outcome of a call that panicked: `U` are the positions it leaves reserved but never initialised. -/
def Failure (c : Cid) (w0 w : World α) (U : Nat → Prop) (d : List (Ev α)) (k : PanicKind) : Op α β → Prop
  | .push _ => ∃ i, w0.spec.len ≤ i ∧ k = .maxCapacity ∧ w.mem.maxCap ≤ i ∧ d = [.reserve c i 1] ∧
      ∀ j, U j ↔ j = i
  | .pushForIdx f => ∃ i, w0.spec.len ≤ i ∧ d = [.reserve c i 1] ∧ (∀ j, U j ↔ j = i) ∧
      ((k = .maxCapacity ∧ w.mem.maxCap ≤ i ∧ f i ≠ none) ∨ (k = .userCode ∧ f i = none))
  | .extend it => ∃ b, FailGrow c w0 w it.items it.hint U d k b
  | .extendN items n => ∃ b, FailGrow c w0 w items n U d k b
  | .extendForIdx f n => ∃ b,
      (k = .maxCapacity ∧ FailGrow c w0 w [] n U d k b) ∨
      (∃ it, f b = some it ∧ it.hint = n ∧ FailGrow c w0 w it.items n U d k b) ∨
      (w0.spec.len ≤ b ∧ d = [.reserve c b n] ∧ (∀ i, U i ↔ b ≤ i ∧ i < b + n) ∧
        (0 < n → b + n ≤ w.mem.cap) ∧
        ((k = .userCode ∧ f b = none) ∨ (k = .iterLenMismatch ∧ ∃ it, f b = some it ∧ it.hint ≠ n)))
  | .index i => (∀ j, ¬ U j) ∧ k = .outOfBounds ∧ d = [] ∧ ∃ n, LenOK c w0 n w ∧ n ≤ i
  | .splitAt mid => (∀ j, ¬ U j) ∧ k = .splitMid ∧ d = [] ∧ ∃ n, LenOK c w0 n w ∧ n < mid
  | .chunks m => (∀ j, ¬ U j) ∧ k = .chunkZero ∧ d = [] ∧ m = 0
  | .map f => (∀ j, ¬ U j) ∧ k = .userCode ∧ ∃ n, LenOK c w0 n w ∧ FailMap c 0 n f d
  | .filter f => (∀ j, ¬ U j) ∧ k = .userCode ∧ ∃ n, LenOK c w0 n w ∧ FailMap c 0 n f d
  | .fold f init => (∀ j, ¬ U j) ∧ k = .userCode ∧ ∃ n, LenOK c w0 n w ∧ FailFold c 0 n f init d
  | .visit f init => (∀ j, ¬ U j) ∧ k = .userCode ∧ ∃ n, LenOK c w0 n w ∧ FailVisit c 0 n f init d
  | .reduce f => (∀ j, ¬ U j) ∧ k = .userCode ∧ ∃ n, LenOK c w0 n w ∧ FailReduce c 0 n f d
  | .eqList veq ts => (∀ j, ¬ U j) ∧ k = .userCode ∧ ∃ n, LenOK c w0 n w ∧ FailEq c 0 n veq ts d
  | .fillWith f => (∀ j, ¬ U j) ∧ k = .userCode ∧ ∃ n, LenOK c w0 n w ∧ FailFillWith c 0 n f d ∧ Early c w0 n w
  | .elMap f e => (∀ j, ¬ U j) ∧ k = .userCode ∧ ∃ v, f v = none ∧ d = [.read c e v]
  | .elUpdate f e => (∀ j, ¬ U j) ∧ k = .userCode ∧
      ∃ old, (f old).2 = false ∧ d = [.read c e old, .write c e old (f old).1]
  | .slIndex s i => (∀ j, ¬ U j) ∧ k = .outOfBounds ∧ d = [] ∧ s.len ≤ i
  | .slSplitAt s mid => (∀ j, ¬ U j) ∧ k = .splitMid ∧ d = [] ∧ s.len < mid
  | .slChunks _ m => (∀ j, ¬ U j) ∧ k = .chunkZero ∧ d = [] ∧ m = 0
  | .slMap s f => (∀ j, ¬ U j) ∧ k = .userCode ∧ FailMap c s.a s.len f d
  | .slFilter s f => (∀ j, ¬ U j) ∧ k = .userCode ∧ FailMap c s.a s.len f d
  | .slFold s f init => (∀ j, ¬ U j) ∧ k = .userCode ∧ FailFold c s.a s.len f init d
  | .slVisit s f init => (∀ j, ¬ U j) ∧ k = .userCode ∧ FailVisit c s.a s.len f init d
  | .slReduce s f => (∀ j, ¬ U j) ∧ k = .userCode ∧ FailReduce c s.a s.len f d
  | .slEqList s veq ts => (∀ j, ¬ U j) ∧ k = .userCode ∧ FailEq c s.a s.len veq ts d
  | .slFillWith s f => (∀ j, ¬ U j) ∧ k = .userCode ∧ FailFillWith c s.a s.len f d
  | _ => False

/-- The next value an `extend` of `n` items may publish after the data events `d`. -/
def PubNext (c : Cid) (items : List (Option α)) (n : Nat) (d : List (Ev α)) (i : Nat) (x : α) : Prop :=
  ∃ b vs, d = .reserve c b n :: pubs c b vs ∧ i = b + vs.length ∧ vs.length < n ∧
    vs.map some ++ [some x] <+: items

/-- Data events a call may perform after the data events `d`, finished or not. -/
def Allows (op : Op α β) (d : List (Ev α)) (e : Ev α) : Prop :=
  match op, e with
  | .push _, .reserve _ _ n => d = [] ∧ n = 1
  | .push v, .publish c i x => d = [.reserve c i 1] ∧ x = v
  | .pushForIdx _, .reserve _ _ n => d = [] ∧ n = 1
  | .pushForIdx f, .publish c i x => d = [.reserve c i 1] ∧ f i = some x
  | .extend it, .reserve _ _ n => d = [] ∧ n = it.hint
  | .extend it, .publish c i x => PubNext c it.items it.hint d i x
  | .extendN _ m, .reserve _ _ n => d = [] ∧ n = m
  | .extendN items m, .publish c i x => PubNext c items m d i x
  | .extendForIdx _ m, .reserve _ _ n => d = [] ∧ n = m
  | .extendForIdx f m, .publish c i x => ∃ b it vs, f b = some it ∧ it.hint = m ∧
      d = .reserve c b m :: pubs c b vs ∧ i = b + vs.length ∧ vs.length < m ∧
      vs.map some ++ [some x] <+: it.items
  | .getCloned i, .read _ j _ => d = [] ∧ i = j
  | .iterCloned, .read .. | .map _, .read .. | .filter _, .read .. | .fold .., .read .. | .visit .., .read ..
  | .reduce _, .read ..
  | .indexOf .., .read .. | .contains .., .read .. | .cloneToVec, .read .. | .eqList .., .read ..
  | .debug _, .read .. => True
  | .swap _ i j, .swap _ i' j' => d = [] ∧ i = i' ∧ j = j' ∧ i ≠ j
  | .fill v, .write _ _ _ x => x = v
  | .fillWith f, .write _ i _ x => f i = some x
  | .elCloned e, .read _ i _ | .elMap _ e, .read _ i _ | .elReplace e _, .read _ i _
  | .elUpdate _ e, .read _ i _ | .elEq _ _ e, .read _ i _ | .deref e, .read _ i _ => d = [] ∧ i = e
  | .elReplace e v, .write c i old x => d = [.read c i old] ∧ i = e ∧ x = v
  | .elSet e v, .write _ i _ x => d = [] ∧ i = e ∧ x = v
  | .elUpdate f e, .write c i old x => d = [.read c i old] ∧ i = e ∧ x = (f old).1
  | .slGetCloned s i, .read _ j _ => d = [] ∧ i < s.len ∧ j = s.a + i
  | .slIterCloned s, .read _ i _ | .slMap s _, .read _ i _ | .slFilter s _, .read _ i _
  | .slFold s _ _, .read _ i _ | .slVisit s _ _, .read _ i _ | .slReduce s _, .read _ i _ | .slIndexOf s _ _, .read _ i _
  | .slContains s _ _, .read _ i _ | .slEqList s _ _, .read _ i _ | .slDebug s _, .read _ i _ =>
      s.a ≤ i ∧ i < s.a + s.len
  | .slSwap _ s i j, .swap _ i' j' => d = [] ∧ i < s.len ∧ j < s.len ∧ i' = s.a + i ∧ j' = s.a + j ∧ i ≠ j
  | .slFill s v, .write _ i _ x => s.a ≤ i ∧ i < s.a + s.len ∧ x = v
  | .slFillWith s f, .write _ i _ x => s.a ≤ i ∧ i < s.a + s.len ∧ f (i - s.a) = some x
  | _, _ => False

/-- Only user code dereferencing a pointer reads without holding the element. -/
def raw : Op α β → Bool
  | .deref _ => true
  | _ => false

/-- Blocking swaps take the smaller index first. -/
def Ordered : Op α β → Prop
  | .swap .spinning i j => i < j
  | .slSwap .spinning _ i j => i < j
  | _ => True

/-- The call may wait for element `i` while it holds element `j`. -/
def Nested : Op α β → Nat → Nat → Prop
  | .swap .spinning a b => fun j i => j = a ∧ i = b
  | .slSwap .spinning s a b => fun j i => j = s.a + a ∧ i = s.a + b
  | _ => fun _ _ => False

/-- No blocking swap of a position with itself. -/
def NoSelf : Op α β → Prop
  | .swap .spinning i j => i ≠ j
  | .slSwap .spinning _ i j => i ≠ j
  | _ => True

theorem Ordered.nested {op : Op α β} (h : op.Ordered) {j i : Nat} (hn : op.Nested j i) : j < i := by
  cases op <;> try exact hn.elim
  case swap mm a b => cases mm <;> first | exact hn.elim | (obtain ⟨rfl, rfl⟩ := hn; exact h)
  case slSwap mm s a b =>
    cases mm
    · obtain ⟨rfl, rfl⟩ := hn
      exact Nat.add_lt_add_left h _
    · exact hn.elim

theorem NoSelf.nested {op : Op α β} (h : op.NoSelf) {i : Nat} (hn : op.Nested i i) : False := by
  cases op <;> try exact hn.elim
  case swap mm a b => cases mm <;> first | exact hn.elim | exact h (hn.1.symm.trans hn.2)
  case slSwap mm s a b =>
    cases mm
    · exact h (Nat.add_left_cancel (hn.1.symm.trans hn.2))
    · exact hn.elim

end Op

/-- The context in which a call is verified. -/
def Op.ctx (op : Op α β) (σ₀ : SpecSt α) (c : Cid) : Ctx α where
  σ₀ := σ₀
  c := c
  raw := op.raw
  nested := op.Nested
  A := fun d e => e.cid = c ∧ (e.isData = false ∨ op.Allows d e)

def Post (op : Op α β) (c : Cid) (w0 : World α) (r : Ret α β) (w : World α) : Prop :=
  ∃ d, Loc c w0 noPos noPos d False w ∧ op.Outcome c w0 w d r

def PPost (op : Op α β) (c : Cid) (w0 : World α) (k : PanicKind) (w : World α) : Prop :=
  ∃ U d, Loc c w0 noPos U d False w ∧ op.Failure c w0 w U d k

end Verif
