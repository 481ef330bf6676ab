import Verif.Proof.UserCode
import Verif.Proof.Bulk
import Verif.Props.Bulk

/-!
# User code with state, user code that stops or panics: C53

`Op.visit f init` is a loop over `vec.iter()` that hands each element to user code: `f` has a state, may panic (`none`), and decides
whether the loop goes on. The first part says what such a call does. The second part says that the functions of the crate which
hand elements to user code are such loops, also if the closures have state (`FnMut`), and if `T::clone`, `T::eq`, `T::fmt` panic
or fail; the programs are compared, so that everything proved about calls of `visit` (also C08, C15, C18, C19, C39, C41, C46, C52, …)
holds for them.

`called`, `looped`, `mapped`, `kept`, … (`Spec/UserCode.lean`, `Spec/Accesses.lean`, `Spec/ListSpec.lean`) are functions on lists.
-/

namespace Verif

variable {α β σ : Type} {m : Mem α} {l : List α} {n : Nat} {κ : Nat → Cfg α β}

/-! ## Calls -/

/-- **C53.** A loop over the vector that returned called the user code with the elements at the positions 0, 1, 2, … in this order,
each once, with their contents at these moments, and passed the state on from call to call. It covered all elements of an
observed length, unless the user code left the loop. -/
theorem C53_visit (hm : InitMem m l) (h : Exec m l n κ) {c : Cid} {f : β → α → Option (β × Bool)} {init : β} {x : Ret α β}
    (hr : (κ n).Returned c (.visit f init) x) :
    ∃ vs b go len, x = .beta b ∧ called f init vs = some (b, go) ∧ Saw κ n c 0 vs ∧ (κ n).Observes c len ∧ vs.length ≤ len ∧
      (go = true → vs.length = len) := by
  obtain ⟨ct, st, et, fin, hc⟩ := hr
  obtain ⟨d, hi⟩ := (h.inv hm (Nat.le_refl n)).returned hc
  obtain ⟨len, b, hl, rfl, vs, go, hd, h1, h2, h3⟩ := hi.out
  exact ⟨vs, b, go, len, rfl, h1, h.saw hm (hi.data.trans hd), h.observes hm hc rfl rfl hl, h2, h3⟩

/-- **C53.** A loop over the vector panics only because the user code panicked, at the first element for which it did. -/
theorem C53_visit_panic (hm : InitMem m l) (h : Exec m l n κ) {c : Cid} {f : β → α → Option (β × Bool)} {init : β}
    {k : PanicKind} (hr : (κ n).Panicked c (.visit f init) k) :
    k = .userCode ∧ ∃ vs v b, called f init vs = some (b, true) ∧ f b v = none ∧ Saw κ n c 0 (vs ++ [v]) := by
  obtain ⟨ct, st, et, fin, hc⟩ := hr
  obtain ⟨U, d, hi⟩ := (h.inv hm (Nat.le_refl n)).panicked hc
  obtain ⟨-, rfl, len, hl, vs, v, b, h1, hd, h2, h3⟩ := hi.out
  exact ⟨rfl, vs, v, b, h2, h3, h.saw hm (hi.data.trans hd)⟩

/-- **C53.** The same for a loop over a slice. -/
theorem C53_slice_visit (hm : InitMem m l) (h : Exec m l n κ) {c : Cid} {s : Slc} {f : β → α → Option (β × Bool)} {init : β}
    {x : Ret α β} (hr : (κ n).Returned c (.slVisit s f init) x) :
    ∃ vs b go, x = .beta b ∧ called f init vs = some (b, go) ∧ Saw κ n c s.a vs ∧ vs.length ≤ s.len ∧
      (go = true → vs.length = s.len) := by
  obtain ⟨ct, st, et, fin, hc⟩ := hr
  obtain ⟨d, hi⟩ := (h.inv hm (Nat.le_refl n)).returned hc
  obtain ⟨b, rfl, vs, go, hd, h1, h2, h3⟩ := hi.out
  exact ⟨vs, b, go, rfl, h1, h.saw hm (hi.data.trans hd), h2, h3⟩

/-- **C53.** -/
theorem C53_slice_visit_panic (hm : InitMem m l) (h : Exec m l n κ) {c : Cid} {s : Slc} {f : β → α → Option (β × Bool)} {init : β}
    {k : PanicKind} (hr : (κ n).Panicked c (.slVisit s f init) k) :
    k = .userCode ∧ ∃ vs v b, called f init vs = some (b, true) ∧ f b v = none ∧ vs.length < s.len ∧ Saw κ n c s.a (vs ++ [v]) := by
  obtain ⟨ct, st, et, fin, hc⟩ := hr
  obtain ⟨U, d, hi⟩ := (h.inv hm (Nat.le_refl n)).panicked hc
  obtain ⟨-, rfl, vs, v, b, h1, hd, h2, h3⟩ := hi.out
  exact ⟨rfl, vs, v, b, h2, h3, h1, h.saw hm (hi.data.trans hd)⟩

/-- **C53.** If the call is not disturbed, the result is that of the same loop over the list of the elements. -/
theorem C53_exact (hm : InitMem m l) (h : Exec m l n κ) {c : Cid} {f : β → α → Option (β × Bool)} {init : β} {x : Ret α β}
    {vs : List α} (hr : (κ n).Returned c (.visit f init) x) (hh : (κ n).Holding c vs) :
    ∃ b, x = .beta b ∧ looped f init vs = some b := by
  obtain ⟨w0, w, d, ⟨len, b, hl, rfl, xs, go, hd, h3, h4, h5⟩, h1, h2⟩ := h.holding_all hm hr hh (fun _ h => h) rfl
  refine ⟨b, rfl, ?_⟩
  have hlen := h1 len hl
  have hx := h2 xs hd (by omega)
  have := called_looped (vs.drop xs.length) h3
  rw [show xs ++ vs.drop xs.length = vs by conv_lhs => arg 1; rw [hx]
                                           exact List.take_append_drop _ _] at this
  rw [this]
  cases go with
  | false => rfl
  | true =>
    rw [List.drop_of_length_le (by have := h5 rfl; omega)]
    rfl

/-- **C53.** For a slice it is enough that nobody writes to its elements. -/
theorem C53_slice_exact (hm : InitMem m l) (h : Exec m l n κ) {c : Cid} {s : Slc} {f : β → α → Option (β × Bool)} {init : β}
    {x : Ret α β} {vs : List α} (hr : (κ n).Returned c (.slVisit s f init) x) (hh : (κ n).Viewing c s vs) :
    ∃ b, x = .beta b ∧ looped f init vs = some b := by
  obtain ⟨w0, w, d, ⟨b, rfl, xs, go, hd, h3, h4, h5⟩, h1, h2⟩ := h.viewing_all hm hr hh (fun _ h => h)
  refine ⟨b, rfl, ?_⟩
  have hx := h2 xs hd (by omega)
  have := called_looped (vs.drop xs.length) h3
  rw [show xs ++ vs.drop xs.length = vs by conv_lhs => arg 1; rw [hx]
                                           exact List.take_append_drop _ _] at this
  rw [this]
  cases go with
  | false => rfl
  | true =>
    rw [List.drop_of_length_le (by have := h5 rfl; omega)]
    rfl

/-- **C53.** The result of a call in terms of the values that it was given. -/
theorem C53_computes (hm : InitMem m l) (h : Exec m l n κ) {c : Cid} {f : β → α → Option (β × Bool)} {init : β} {x : Ret α β}
    (hr : (κ n).Returned c (.visit f init) x) : ∃ vs b, x = .beta b ∧ looped f init vs = some b ∧ Saw κ n c 0 vs := by
  obtain ⟨vs, b, go, len, rfl, h1, h2, -, -, -⟩ := C53_visit hm h hr
  refine ⟨vs, b, rfl, ?_, h2⟩
  have := called_looped [] h1
  rw [List.append_nil] at this
  rw [this]
  cases go <;> rfl

/-! ## The functions of the crate are such loops

Each theorem has three parts: the function of the vector is the loop, the function of a slice is the loop, and what the loop
computes from the values it is given. `CVec.over (Loop.mapMut f s)` is `vec.map(f)` for a closure in state `s`, and so on. `reduce` and
`clone_to_vec` of the vector are `as_slice()` followed by the function of the slice (`src/iter_shorthands.rs:92-98`,
`src/to_vec.rs:21-26`). -/

/-- **C53.** `map` with an `FnMut` closure. -/
theorem C53_map (f : σ → α → Option (β × σ)) (s : σ) :
    CVec.over (Loop.mapMut f s) = CVec.visit (stepMap f) ([], s) ∧
    (∀ sl : Slc, Loop.mapMut f s sl.iter = sl.visit (stepMap f) ([], s)) ∧
    ∀ vs, looped (stepMap f) ([], s) vs = mapped f s vs := by
  have h : ∀ is, Loop.visit (stepMap f) ([], s) is = Loop.mapMut f s is := fun is => by
    rw [mapMut_visit f is [] s]; exact Prog.bind_ret _
  refine ⟨?_, fun sl => (h _).symm, fun vs => by rw [looped_map]; simp⟩
  unfold CVec.over CVec.visit
  simp only [h]

/-- **C53.** `filter` with an `FnMut` closure. -/
theorem C53_filter (f : σ → α → Option (Bool × σ)) (s : σ) :
    CVec.over (Loop.filterMut f s) = (CVec.visit (stepFilter f) ([], 0, s)).bind (fun r => .ret (r.1, r.2.2)) ∧
    (∀ sl : Slc, Loop.filterMut f s sl.iter = (sl.visit (stepFilter f) ([], sl.a, s)).bind fun r => .ret (r.1, r.2.2)) ∧
    ∀ a vs, (looped (stepFilter f) ([], a, s) vs).map (fun r => (r.1, r.2.2)) = kept f a s vs := by
  have h : ∀ a n, (Loop.visit (stepFilter f) ([], a, s) (positions a n)).bind (fun r => .ret (r.1, r.2.2)) =
      Loop.filterMut f s (positions a n) := fun a n => by
    rw [filterMut_visit, Prog.bind_assoc]; exact Prog.bind_ret _
  refine ⟨?_, fun sl => (h _ _).symm, fun a vs => by
    rw [looped_filter, Option.map_map]; exact Option.map_id'⟩
  unfold CVec.over CVec.visit CVec.iter
  simp only [Prog.bind_eq, Prog.pure_eq, Prog.bind_assoc, Prog.ret_bind, h]

/-- **C53.** `fold` with an `FnMut` closure. -/
theorem C53_fold (f : σ → β → α → Option (β × σ)) (s : σ) (b : β) :
    CVec.over (Loop.foldMut f s b) = CVec.visit (stepFold f) (b, s) ∧
    (∀ sl : Slc, Loop.foldMut f s b sl.iter = sl.visit (stepFold f) (b, s)) ∧
    ∀ vs, looped (stepFold f) (b, s) vs = folded f s b vs := by
  have h : ∀ is, Loop.visit (stepFold f) (b, s) is = Loop.foldMut f s b is := fun is => foldMut_visit f is b s
  refine ⟨?_, fun sl => (h _).symm, fun vs => looped_fold f vs b s⟩
  unfold CVec.over CVec.visit
  simp only [h]

/-- **C53.** `reduce` with an `FnMut` closure, and a `T::clone` that may panic. -/
theorem C53_reduce (cl : α → Option α) (f : σ → α → α → Option (α × σ)) (s : σ) :
    (∀ sl : Slc, Loop.reduceMut cl f s sl.iter = sl.visit (stepReduce cl f) (none, s)) ∧
    ∀ vs, looped (stepReduce cl f) (none, s) vs = reducedFrom cl f s vs :=
  ⟨fun _ => (reduceMut_visit cl f _ s).symm, fun vs => looped_reduce cl f vs s⟩

/-- **C53.** `index_of` with a `T::eq` that may panic; `contains` asks whether there is an index (`src/partial_eq.rs:38-40`). -/
theorem C53_index_of (veq : α → α → Option Bool) (t : α) :
    CVec.over (Loop.positionTry veq t 0) = (CVec.visit (stepPosition veq t) (0, none)).bind (fun r => .ret r.2) ∧
    (∀ sl : Slc, Loop.positionTry veq t 0 sl.iter = (sl.visit (stepPosition veq t) (0, none)).bind fun r => .ret r.2) ∧
    ∀ vs, (looped (stepPosition veq t) (0, none) vs).map Prod.snd = located veq t 0 vs := by
  refine ⟨?_, fun sl => (positionTry_visit veq t _ 0).symm, fun vs => looped_position veq t vs 0⟩
  unfold CVec.over CVec.visit
  simp only [Prog.bind_eq, Prog.bind_assoc, positionTry_visit]

/-- **C53.** `iter_cloned`, `clone`, `clone_to_vec` with a `T::clone` that may panic. -/
theorem C53_cloned (cl : α → Option α) :
    CVec.over (Loop.clonedTry cl) = CVec.visit (stepClone cl) [] ∧
    (∀ sl : Slc, Loop.clonedTry cl sl.iter = sl.visit (stepClone cl) []) ∧
    ∀ vs, looped (stepClone cl) [] vs = vs.mapM cl := by
  have h : ∀ is, Loop.visit (stepClone cl) [] is = Loop.clonedTry cl is := fun is => by
    rw [clonedTry_visit]; exact Prog.bind_ret _
  refine ⟨?_, fun sl => (h _).symm, fun vs => by rw [looped_clone]; simp⟩
  unfold CVec.over CVec.visit
  simp only [h]

/-- **C53.** `Debug` with a `T::fmt` that may panic, or return an error. -/
theorem C53_debug (fmt : String → α → Option (String × Bool)) :
    CVec.over (Loop.debugTry fmt) = (CVec.visit (stepDebug fmt) (true, "[", true)).bind (fun r => .ret (endDebug r)) ∧
    (∀ sl : Slc, Loop.debugTry fmt sl.iter = (sl.visit (stepDebug fmt) (true, "[", true)).bind fun r => .ret (endDebug r)) ∧
    ∀ vs, (looped (stepDebug fmt) (true, "[", true) vs).map endDebug = written fmt "[" vs := by
  refine ⟨?_, fun sl => (debugTry_visit fmt _).symm, fun vs => looped_debug fmt vs⟩
  unfold CVec.over CVec.visit
  simp only [Prog.bind_eq, Prog.bind_assoc, debugTry_visit]

/-- **C53.** `fill_with` with an `FnMut` closure is `fill_with` with the results of the successive calls; `fill` with a `T::clone`
whose `k`-th call gives `cl k` is `fill_with` of `cl`. -/
theorem C53_fill (f : σ → Nat → Option (α × σ)) (s : σ) (cl : Nat → Option α) :
    CVec.over (Loop.fillWithMut f s 0) = CVec.fillWith (supplied f s 0) ∧
    (∀ sl : Slc, Loop.fillWithMut f s 0 sl.iter = sl.fillWith (supplied f s 0)) ∧
    CVec.over (Loop.fillTry cl 0) = CVec.fillWith cl ∧ (∀ sl : Slc, Loop.fillTry cl 0 sl.iter = sl.fillWith cl) := by
  have h : ∀ is, Loop.fillWithMut f s 0 is = Loop.fillWith (supplied f s 0) 0 is := fun is =>
    fillWithMut_eq f is s 0 _ fun j _ _ => by rw [Nat.zero_add]
  refine ⟨?_, fun sl => h _, ?_, fun sl => fillTry_eq cl _ 0⟩
  · unfold CVec.over CVec.fillWith
    simp only [h]
  · unfold CVec.over CVec.fillWith
    simp only [fillTry_eq]

/-! ## Examples -/

section examples
open Demo

/-- The example in the documentation of `fill_with` (`src/mut_elem.rs:66-82`): `current += i`. -/
example : (List.range 4).map (supplied (fun s i => some (s + i, s + i)) 0 0) = [some 0, some 1, some 3, some 6] := rfl

/-- Lists: `map` with a counter, which panics at the value 0; `filter` of every other value; `Debug`. -/
example : mapped (fun s x => if x = 0 then none else some ((s, x), s + 1)) 0 [10, 20, 30] =
      some ([(0, 10), (1, 20), (2, 30)], 3) ∧
    mapped (fun s x => if x = 0 then none else some ((s, x), s + 1)) 0 [10, 0, 30] = none ∧
    kept (fun s _ => some (s, !s)) 5 true ["a", "b", "c"] = some ([5, 7], false) ∧
    written (fun s x => some (s ++ toString x, true)) "[" [10, 20] = some ("[10, 20]", true) ∧
    written (fun s x => some (s ++ toString x, x != 10)) "[" [10, 20] = some ("[10", false) := by
  decide

/-- C53: the sum of the elements before the first one above 15, over `[10, 20, 30]`. The third element is not touched. -/
def Demo.until15 : Nat → Nat → Option (Nat × Bool) := fun b x => some (b + x, decide (x ≤ 15))

/-- C53: the user code panics at the value 20. -/
def Demo.panic20 : Nat → Nat → Option (Nat × Bool) := fun b x => if x = 20 then none else some (b + x, true)

example : ∃ κ : Cfg Nat Nat, Reach (mem [10, 20, 30] 3 8) [10, 20, 30] κ ∧ κ.Holding 1 [10, 20, 30] ∧
    κ.Returned 1 (.visit until15 0) (.beta 30) ∧ called until15 0 [10, 20] = some (30, false) ∧
    looped until15 0 [10, 20, 30] = some 30 :=
  have hp : Possible [10, 20, 30] 3 8 (one (.visit until15 0) 11) := by unfold Possible; rfl
  ⟨_, reach_after hp, holding_alone (by decide) (by decide) (reach_after hp) ⟨_, rfl, rfl⟩ (leading_of rfl rfl) rfl,
    returned_of rfl rfl, rfl, rfl⟩

example : ∃ κ : Cfg Nat Nat, Reach (mem [10, 20, 30] 3 8) [10, 20, 30] κ ∧ κ.Panicked 1 (.visit panic20 0) .userCode ∧
    called panic20 0 [10] = some (10, true) ∧ panic20 10 20 = none :=
  have hp : Possible [10, 20, 30] 3 8 (one (.visit panic20 0) 11) := by unfold Possible; rfl
  ⟨_, reach_after hp, panicked_of rfl rfl, rfl, rfl⟩

/-- C53: as above, for the slice of the last two elements. -/
def Demo.sum20 : Nat → Nat → Option (Nat × Bool) := fun b x => some (b + x, decide (x ≤ 20))

/-- C53: the user code panics at the value 30. -/
def Demo.panic30 : Nat → Nat → Option (Nat × Bool) := fun b x => if x = 30 then none else some (b + x, true)

/-- C53, slices: call 1 takes the slice `1..`, call 2 works on it. -/
example : ∃ κ : Cfg Nat Nat, Reach (mem [10, 20, 30] 3 8) [10, 20, 30] κ ∧ κ.Viewing 2 ⟨1, 2⟩ [20, 30] ∧
    κ.Returned 2 (.slVisit ⟨1, 2⟩ sum20 0) (.beta 50) :=
  have hp : Possible [10, 20, 30] 3 8 (sliced (.slVisit ⟨1, 2⟩ sum20 0)) := by unfold Possible; rfl
  ⟨_, reach_after hp, sliced_viewing hp ⟨_, rfl, rfl⟩ rfl rfl rfl, returned_of rfl rfl⟩

example : ∃ κ : Cfg Nat Nat, Reach (mem [10, 20, 30] 3 8) [10, 20, 30] κ ∧
    κ.Panicked 2 (.slVisit ⟨1, 2⟩ panic30 0) .userCode :=
  have hp : Possible [10, 20, 30] 3 8 (sliced (.slVisit ⟨1, 2⟩ panic30 0)) := by unfold Possible; rfl
  ⟨_, reach_after hp, panicked_of rfl rfl⟩

end examples

end Verif
