import Verif.Proof.CompareLists
import Verif.Props.DemoCompare
import Verif.Props.DemoViews

/-!
# C55: comparing vectors, slices and elements with each other

`vec == vec`, `vec == slice`, `slice == vec`, `slice == slice` and `elem == elem` (`src/common_traits/eq.rs`), also of parts of the
same vector. The executions (`SysExec`) are those of any number of vectors which any number of threads use and compare
(`Model/Compare.lean`).
-/

namespace Verif

variable {α β : Type} {m : Nat → Mem α} {l : Nat → List α} {S : Nat → Sys α β} {n : Nat}

/-- Each of the vectors that are compared is used as in `Model/Conc.lean`: whatever is proved there about executions of one vector
applies to it. In particular there is no undefined behaviour. -/
theorem C55_each_vector (h : SysExec m l n S) (hm : ∀ u, InitMem (m u) (l u)) (u : Nat) :
    Reach (m u) (l u) ((S n).vec u) ∧ ((S n).vec u).ub = false :=
  have hr := (h.ok hm (Nat.le_refl n)).reach u
  ⟨hr, (hr.inv (hm u)).noUB⟩

/-- If the comparison returns `b`, then it went through the elements of both operands pairwise, from the front, each pair at one
moment of the comparison (later pairs at later moments). It returned `true` if all pairs were equal and the operands have the same
number of elements, and `false` if a pair differed (it stopped there) or one operand was exhausted before the other. -/
theorem C55_result (h : SysExec m l n S) (hm : ∀ u, InitMem (m u) (l u)) {k : Nat} {T : Cmp α β} {b : Bool}
    (hk : (S n).cmp k = some T) (hb : T.prog = .ret b) :
    ∃ es fs rs τ, (S n).Elements T .left es ∧ (S n).Elements T .right fs ∧ Compared S n k T es fs rs τ ∧ Verdict es fs rs b := by
  cases (h.ok hm (Nat.le_refl n)).phase k T hk with
  | ret es fs rs b' hH hv h =>
    rw [hb] at h
    cases h
    obtain ⟨τ, hτ⟩ := hH.cmp
    exact ⟨es, fs, rs, τ, hH.left, hH.right, hτ, hv⟩
  | locking es fs j e f hH he hf h => cases h <;> rename_i h <;> rw [h] at hb <;> cases hb
  | judging es fs j e f x y hH h => cases h <;> rename_i h <;> rw [h] at hb <;> cases hb
  | callL _ _ h => rw [h] at hb; cases hb
  | finL _ _ _ _ h => rw [h] at hb; cases hb
  | callR _ _ _ _ h => rw [h] at hb; cases hb
  | finR _ _ _ _ _ _ h => rw [h] at hb; cases hb
  | fail _ _ _ _ h => rw [h] at hb; cases hb

/-- A comparison panics only if `T::eq` does: on the first pair that is not found equal. -/
theorem C55_panics (h : SysExec m l n S) (hm : ∀ u, InitMem (m u) (l u)) {k : Nat} {T : Cmp α β} {pk : PanicKind}
    (hk : (S n).cmp k = some T) (hb : T.prog = .panic pk) :
    pk = .userCode ∧ ∃ es fs j τ, (S n).Elements T .left es ∧ (S n).Elements T .right fs ∧
      Compared S n k T es fs (List.replicate j (some true) ++ [none]) τ := by
  cases (h.ok hm (Nat.le_refl n)).phase k T hk with
  | fail es fs j hH h =>
    rw [hb] at h
    cases h
    obtain ⟨τ, hτ⟩ := hH.cmp
    exact ⟨rfl, es, fs, j, τ, hH.left, hH.right, hτ⟩
  | locking es fs j e f hH he hf h => cases h <;> rename_i h <;> rw [h] at hb <;> cases hb
  | judging es fs j e f x y hH h => cases h <;> rename_i h <;> rw [h] at hb <;> cases hb
  | callL _ _ h => rw [h] at hb; cases hb
  | finL _ _ _ _ h => rw [h] at hb; cases hb
  | callR _ _ _ _ h => rw [h] at hb; cases hb
  | finR _ _ _ _ _ _ h => rw [h] at hb; cases hb
  | ret _ _ _ _ _ _ h => rw [h] at hb; cases hb

/-- If nobody changes the operands, the result is that of comparing the two lists of values. -/
theorem C55_equal (h : SysExec m l n S) (hm : ∀ u, InitMem (m u) (l u)) {k : Nat} {T : Cmp α β} {b : Bool} {xs ys : List α}
    (hk : (S n).cmp k = some T) (hb : T.prog = .ret b) (hx : Steady S n k T .left xs) (hy : Steady S n k T .right ys) :
    equalLists T.veq xs ys = some b := by
  obtain ⟨es, fs, rs, τ, h1, h2, h3, h4⟩ := C55_result h hm hk hb
  have hI := (h.ok hm (Nat.le_refl n)).toSysInv
  have e1 := hx.elements hm hI h1
  have e2 := hy.elements hm hI h2
  exact h4.equalLists e1.1 e2.1 (h3.values hx hy e1 e2)

/-- The same for panics: comparing the two lists of values panics, too. -/
theorem C55_equal_panics (h : SysExec m l n S) (hm : ∀ u, InitMem (m u) (l u)) {k : Nat} {T : Cmp α β} {pk : PanicKind}
    {xs ys : List α} (hk : (S n).cmp k = some T) (hb : T.prog = .panic pk) (hx : Steady S n k T .left xs)
    (hy : Steady S n k T .right ys) : equalLists T.veq xs ys = none := by
  obtain ⟨-, es, fs, j, τ, h1, h2, h3⟩ := C55_panics h hm hk hb
  have hI := (h.ok hm (Nat.le_refl n)).toSysInv
  exact equalLists_panics (h3.values hx hy (hx.elements hm hI h1) (hy.elements hm hI h2))

section examples
open Demo

/-- `T::eq` of the examples: compares numbers, panics on 99. -/
def Demo.eqN (x y : Nat) : Option Bool := if x = 99 then none else some (decide (x = y))

/-- Vector 0 holds `xs`, all others hold `ys`. -/
def Demo.pairOf (xs ys : List Nat) (u : Nat) : List Nat := if u = 0 then xs else ys

/-- Thread 0 compares vector 0 with vector 1, nobody disturbs. -/
def Demo.cmpVecs (k : Nat) : List (SysChoice Nat Nat) := [.start 0 0 1 .vec .vec eqN] ++ sgo 0 k

/-- Result of thread `k`, if there is one. -/
def Demo.outcome (S : Sys Nat Nat) (k : Nat) : Option (Bool ⊕ PanicKind) :=
  match S.cmp k with
  | none => none
  | some T =>
    match T.prog with
    | .ret b => some (.inl b)
    | .panic e => some (.inr e)
    | _ => none

/-- At every moment of the schedule the first positions of vector `u`, from `a` on, hold `vs`. -/
def Demo.keepsB (l : Nat → List Nat) (chs : List (SysChoice Nat Nat)) (u a : Nat) (vs : List Nat) : Bool :=
  (List.range (chs.length + 1)).all fun t => (List.range vs.length).all fun j =>
    ((sysAfter l (chs.take t)).vec u).content (a + j) == vs[j]?

theorem Demo.keeps_of {l : Nat → List Nat} {chs : List (SysChoice Nat Nat)} {u a : Nat} {vs : List Nat}
    (h : keepsB l chs u a vs = true) {t j : Nat} (ht : t ≤ chs.length) (hj : j < vs.length) :
    ((sysAfter l (chs.take t)).vec u).content (a + j) = vs[j]? := by
  simp only [keepsB, List.all_eq_true, List.mem_range, beq_iff_eq] at h
  exact h t (by omega) j hj

/-- The comparison which thread `k` has made. -/
def Demo.theCmp (l : Nat → List Nat) (chs : List (SysChoice Nat Nat)) (k : Nat) : Cmp Nat Nat :=
  ((sysAfter l chs).cmp k).getD ⟨0, 0, .vec, .vec, eqN, .ret false, fun _ => []⟩

/-- A vector that nobody changes: the comparison's own calls are the only ones. -/
theorem Demo.steady_vec {l : Nat → List Nat} {chs : List (SysChoice Nat Nat)} (hl : ∀ u, (l u).length ≤ 8)
    (hp : SysPossible l chs) {k : Nat} {T : Cmp Nat Nat} {s : Side} {vs : List Nat} {ms : Mem Nat}
    (ha : T.arg s = .vec) (hk : keepsB l chs (T.vecOf s) 0 vs = true)
    (h1 : ∀ c ∈ T.own s, ((sysAfter l chs).vec (T.vecOf s)).Called c .iter → c = 1)
    (hs : ((sysAfter l chs).vec (T.vecOf s)).AtStart 1 ms) (hv : ms.Leading vs)
    (ho : others ((sysAfter l chs).vec (T.vecOf s)) 1 = []) :
    Steady (fun t => sysAfter l (chs.take t)) chs.length k T s vs := by
  refine ⟨fun t ht _ j hj => ?_, ?_⟩
  · rw [ha]
    have := keeps_of hk ht hj
    simpa only [Arg.pos, Nat.zero_add] using this
  · simp only [ha, List.take_length]
    intro c hc hcall
    have := h1 c hc hcall
    subst this
    have hr := (C55_each_vector (sysExec hp) (mems_init hl) (T.vecOf s)).1
    simp only [List.take_length] at hr
    exact holding_alone (Nat.le_refl _) (hl _) hr hs hv ho

/-- `[10, 20] == [10, 20]` for two vectors: the hypotheses of `C55_equal` hold, the result is `true`. -/
example : ∃ (S : Nat → Sys Nat Nat) (n : Nat) (T : Cmp Nat Nat),
    SysExec (mems (pairOf [10, 20] [10, 20])) (pairOf [10, 20] [10, 20]) n S ∧ (S n).cmp 0 = some T ∧ T.prog = .ret true ∧
    Steady S n 0 T .left [10, 20] ∧ Steady S n 0 T .right [10, 20] :=
  have hp : SysPossible (pairOf [10, 20] [10, 20]) (cmpVecs 32) := by unfold SysPossible; rfl
  have hl : ∀ u, (pairOf [10, 20] [10, 20] u).length ≤ 8 := fun u => by unfold pairOf; split <;> decide
  ⟨_, _, theCmp (pairOf [10, 20] [10, 20]) (cmpVecs 32) 0, sysExec hp, rfl, rfl,
    steady_vec hl hp rfl rfl (fun c hc hcall => by
      change c ∈ [3, 2, 1] at hc
      simp only [List.mem_cons, List.not_mem_nil, or_false] at hc
      obtain ⟨_, _, _, h⟩ := hcall
      rcases hc with rfl | rfl | rfl
      · cases h
      · cases h
      · rfl) ⟨_, rfl, rfl⟩ (leading_of rfl rfl) rfl,
    steady_vec hl hp rfl rfl (fun c hc hcall => by
      change c ∈ [3, 2, 1] at hc
      simp only [List.mem_cons, List.not_mem_nil, or_false] at hc
      obtain ⟨_, _, _, h⟩ := hcall
      rcases hc with rfl | rfl | rfl
      · cases h
      · cases h
      · rfl) ⟨_, rfl, rfl⟩ (leading_of rfl rfl) rfl⟩

/-- `T::eq` panics on the second pair: the hypotheses of `C55_panics` and `C55_equal_panics` hold. -/
example : ∃ (S : Nat → Sys Nat Nat) (n : Nat) (T : Cmp Nat Nat),
    SysExec (mems (pairOf [10, 99] [10, 20])) (pairOf [10, 99] [10, 20]) n S ∧ (S n).cmp 0 = some T ∧ T.prog = .panic .userCode ∧
    Steady S n 0 T .left [10, 99] ∧ Steady S n 0 T .right [10, 20] :=
  have hp : SysPossible (pairOf [10, 99] [10, 20]) (cmpVecs 32) := by unfold SysPossible; rfl
  have hl : ∀ u, (pairOf [10, 99] [10, 20] u).length ≤ 8 := fun u => by unfold pairOf; split <;> decide
  ⟨_, _, theCmp (pairOf [10, 99] [10, 20]) (cmpVecs 32) 0, sysExec hp, rfl, rfl,
    steady_vec hl hp rfl rfl (fun c hc hcall => by
      change c ∈ [3, 2, 1] at hc
      simp only [List.mem_cons, List.not_mem_nil, or_false] at hc
      obtain ⟨_, _, _, h⟩ := hcall
      rcases hc with rfl | rfl | rfl
      · cases h
      · cases h
      · rfl) ⟨_, rfl, rfl⟩ (leading_of rfl rfl) rfl,
    steady_vec hl hp rfl rfl (fun c hc hcall => by
      change c ∈ [3, 2, 1] at hc
      simp only [List.mem_cons, List.not_mem_nil, or_false] at hc
      obtain ⟨_, _, _, h⟩ := hcall
      rcases hc with rfl | rfl | rfl
      · cases h
      · cases h
      · rfl) ⟨_, rfl, rfl⟩ (leading_of rfl rfl) rfl⟩

/-- Two slices of the same vector `[10, 20, 10]`, its first and its last element: equal. -/
def Demo.cmpSlices : List (SysChoice Nat Nat) :=
  [.vec 0 (.call (.slice ⟨.unb, .unb⟩))] ++ List.replicate 5 (.vec 0 (.go 1)) ++ [.start 0 0 0 (.slc ⟨0, 1⟩) (.slc ⟨2, 1⟩) eqN] ++
    sgo 0 10

example : ∃ (S : Nat → Sys Nat Nat) (n : Nat) (T : Cmp Nat Nat),
    SysExec (mems (pairOf [10, 20, 10] [])) (pairOf [10, 20, 10] []) n S ∧ (S n).cmp 0 = some T ∧ T.prog = .ret true ∧
    T.u = T.v ∧ Steady S n 0 T .left [10] ∧ Steady S n 0 T .right [10] :=
  have hp : SysPossible (pairOf [10, 20, 10] []) cmpSlices := by unfold SysPossible; rfl
  ⟨_, _, theCmp (pairOf [10, 20, 10] []) cmpSlices 0, sysExec hp, rfl, rfl, rfl,
    ⟨fun _ ht _ _ hj => keeps_of (u := 0) (a := 0) (vs := [10]) rfl ht hj, rfl⟩,
    ⟨fun _ ht _ _ hj => keeps_of (u := 0) (a := 2) (vs := [10]) rfl ht hj, rfl⟩⟩

/-- Thread 0 compares `[10, 20]` with `[10, 30]`; after the first pair another thread writes 11 to the first and 20 to the second
element of the right vector. -/
def Demo.cmpWrites : List (SysChoice Nat Nat) :=
  cmpVecs 22 ++ [.vec 1 (.call (.elSet 0 11))] ++ List.replicate 4 (.vec 1 (.go 3)) ++
    [.vec 1 (.call (.elSet 1 20))] ++ List.replicate 4 (.vec 1 (.go 4)) ++ sgo 0 10

/-- At every moment of the schedule vectors 0 and 1 differ at one of the first two positions. -/
def Demo.differB (l : Nat → List Nat) (chs : List (SysChoice Nat Nat)) : Bool :=
  (List.range (chs.length + 1)).all fun t => (List.range 2).any fun j =>
    ((sysAfter l (chs.take t)).vec 0).content j != ((sysAfter l (chs.take t)).vec 1).content j

end examples

/-- A comparison is not a snapshot: it can return `true` although the two vectors were different at every moment. (`C55_result` says
what the result means: each pair was equal at some moment.) -/
theorem C55_snapshot_negation : ∃ (m : Nat → Mem Nat) (l : Nat → List Nat) (S : Nat → Sys Nat Nat) (n : Nat) (T : Cmp Nat Nat),
    (∀ u, InitMem (m u) (l u)) ∧ SysExec m l n S ∧ (S n).cmp 0 = some T ∧ T.p = .vec ∧ T.q = .vec ∧ T.veq = Demo.eqN ∧
    T.prog = .ret true ∧ ∀ t, t ≤ n → ∃ j, j < 2 ∧ ((S t).vec T.u).content j ≠ ((S t).vec T.v).content j := by
  have hp : Demo.SysPossible (Demo.pairOf [10, 20] [10, 30]) Demo.cmpWrites := by unfold Demo.SysPossible; rfl
  have hl : ∀ u, (Demo.pairOf [10, 20] [10, 30] u).length ≤ 8 := fun u => by unfold Demo.pairOf; split <;> decide
  have hd : Demo.differB (Demo.pairOf [10, 20] [10, 30]) Demo.cmpWrites = true := by rfl
  refine ⟨_, _, _, _, Demo.theCmp (Demo.pairOf [10, 20] [10, 30]) Demo.cmpWrites 0, Demo.mems_init hl, Demo.sysExec hp, rfl, rfl, rfl,
    rfl, rfl, fun t ht => ?_⟩
  simp only [Demo.differB, List.all_eq_true, List.any_eq_true, List.mem_range, bne_iff_ne] at hd
  exact hd t (by omega)

end Verif
