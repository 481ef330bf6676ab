import Verif.Proof.ReadBack
import Verif.Props.Len
import Verif.Props.Elements
import Verif.Props.DemoViews

/-!
# Finding the elements that were added: C62
-/

namespace Verif

variable {α β : Type} {m : Mem α} {l : List α} {n : Nat} {κ : Nat → Cfg α β}

/-- **C62.** `get_cloned(i)` always finds an element that was added before: it returns a value the element had at some moment of the
call. -/
theorem C62_get_cloned (hm : InitMem m l) (h : Exec m l n κ) {d : Cid} {i : Nat} {x : Ret α β} (ha : (κ n).AddedBefore l d i)
    (hr : (κ n).Returned d (.getCloned i) x) :
    ∃ v, x = .optVal (some v) ∧ ∃ t, (κ n).During d t ∧ (κ t).content i = some v := by
  have hI := h.inv hm (Nat.le_refl n)
  obtain ⟨ct, st, et, fin, hc⟩ := hr
  obtain ⟨dd, hinfo⟩ := hI.returned hc
  rcases hinfo.out with ⟨v, rfl, -⟩ | ⟨-, -, hnone⟩
  · exact ⟨v, rfl, C14_some hm h ⟨ct, st, et, fin, hc⟩⟩
  · have := hI.addedBefore hc ha
    rw [hnone] at this
    cases this

/-- **C62.** Why a call does not find position `i`: when it was made some position up to `i` was not initialised, or during the call
another one was accessing an element up to `i`. -/
theorem C62_why (hm : InitMem m l) (h : Exec m l n κ) {d : Cid} {i : Nat} {mem : Mem α} (hs : (κ n).AtStart d mem)
    (hx : (κ n).Misses d i) : ∃ j, j ≤ i ∧ (mem.content j = none ∨ AccessedDuring κ n d j) := by
  have hI := h.inv hm (Nat.le_refl n)
  obtain ⟨r, hd, rfl⟩ := hs
  obtain ⟨et, fin, len, -, hle, hlen⟩ := hI.misses hd hx
  by_cases hall : ∀ j, j < i + 1 → (r.start.spec.val j).isSome
  · rcases hlen.lower (i + 1) hall with h1 | ⟨e, he⟩
    · omega
    · exact ⟨len, hle, .inr (h.busy_overlap hm he)⟩
  · push Not at hall
    obtain ⟨j, hj, hv⟩ := hall
    refine ⟨j, by omega, .inl ?_⟩
    rw [(hI.start d r hd).inv.content_eq]
    simpa using hv

/-- **C62.** An element is found by `get(i)`, `vec[i]`, `len()`, `iter()` and `as_slice()` if it and all elements before it were added
before the call, and none of them is being accessed by another call. What is missing: that it is enough that the element itself was
added before, which is false (`C62_negation`). -/
theorem C62_found_partial (hm : InitMem m l) (h : Exec m l n κ) {d : Cid} {i : Nat} (ha : ∀ j, j ≤ i → (κ n).AddedBefore l d j)
    (hq : ∀ j, j ≤ i → ¬ AccessedDuring κ n d j) : ¬ (κ n).Misses d i := by
  intro hx
  have hI := h.inv hm (Nat.le_refl n)
  have hd : ∃ r, (κ n).calls d = some r := by
    rcases hx with ⟨ct, st, et, fin, hc⟩ | ⟨ct, st, et, fin, hc⟩ | ⟨op, x, len, ⟨ct, st, et, fin, hc⟩, -⟩ <;> exact ⟨_, hc⟩
  obtain ⟨r, hd⟩ := hd
  obtain ⟨j, hj, h1 | h1⟩ := C62_why hm h ⟨r, hd, rfl⟩ hx
  · have := hI.addedBefore hd (ha j hj)
    rw [← (hI.start d r hd).inv.content_eq, h1] at this
    cases this
  · exact hq j hj h1

/-- **C62.** Once some call has reported a length greater than `i`, every later call finds the element, whatever other calls do. -/
theorem C62_reported (hm : InitMem m l) {κ : Cfg α β} (h : Reach m l κ) {c d : Cid} {op : Op α β} {x : Ret α β} {len i : Nat}
    (hr : κ.Returned c op x) (hl : op.ReportsLen len x) (hi : i < len) (hb : κ.Before c d) : ¬ κ.Misses d i := by
  intro hx
  have hI := h.inv hm
  obtain ⟨ct, st, et, fin, hc⟩ := hr
  obtain ⟨dd, hinfo⟩ := hI.returned hc
  have h1 := (hinfo.lenOK hl).1.written
  obtain ⟨r1, r2, g1, g2, hb⟩ := hb
  obtain ⟨t, fin1, he, hev⟩ := hI.before g1 g2 hb
  rw [hc] at g1
  simp only [Option.some.injEq] at g1
  subst g1
  simp only [Status.ended, Option.some.injEq, Prod.mk.injEq] at he
  obtain ⟨rfl, rfl⟩ := he
  obtain ⟨-, -, len', -, hle, hlen⟩ := hI.misses g2 hx
  have := hlen.low
  have := hev.written
  omega

section examples
open Demo

/-- `[10]`: call 1 is `vec.push(7)` and has only received its position 1; call 2 is `vec.push(8)` and returns 2. Then follow
`vec.get(2)`, `vec[2]`, `vec.len()` and `vec.get_cloned(2)`. -/
def Demo.behind : List (Choice Nat Nat) :=
  [.call (.push 7)] ++ go 1 1 ++ [.call (.push 8)] ++ go 2 6 ++ [.call (.get 2)] ++ go 3 6 ++ [.call (.index 2)] ++ go 4 6 ++
  [.call .len] ++ go 5 6 ++ [.call (.getCloned 2)] ++ go 6 7

theorem Demo.behind_possible : Possible [10] 4 8 behind := by unfold Possible; rfl

/-- `[10]`: call 1 pushes 7 (position 1), call 2 pushes 8 (position 2), call 3 is `len()`, call 4 begins `get_cloned(1)` and holds
element 1 while calls 5 and 6 are `get(2)` and `vec[2]`. -/
def Demo.reported : List (Choice Nat Nat) :=
  [.call (.push 7)] ++ go 1 6 ++ [.call (.push 8)] ++ go 2 6 ++ [.call .len] ++ go 3 7 ++ [.call (.getCloned 1)] ++ go 4 5 ++
  [.call (.get 2)] ++ go 5 6 ++ [.call (.index 2)] ++ go 6 6

end examples

/-- **C62.** It is not enough that the element itself was added before: with nobody accessing elements, `push` returned 2, and afterwards
`get(2)` returns `None`, `vec[2]` panics and `len()` returns 1, because a `push` that began earlier is not over; `get_cloned(2)` returns
the value. -/
theorem C62_negation : ∃ (m : Mem Nat) (l : List Nat) (κ : Cfg Nat Nat), InitMem m l ∧ Reach m l κ ∧
    κ.Returned 2 (.push 8) (.nat 2) ∧ κ.Added 2 2 ∧
    (κ.Returned 3 (.get 2) (.elem none) ∧ κ.Before 2 3 ∧ κ.Misses 3 2) ∧
    (κ.Panicked 4 (.index 2) .outOfBounds ∧ κ.Before 2 4 ∧ κ.Misses 4 2) ∧
    (κ.Returned 5 .len (.nat 1) ∧ κ.Before 2 5 ∧ κ.Misses 5 2) ∧
    (κ.Returned 6 (.getCloned 2) (.optVal (some 8)) ∧ κ.Before 5 6) := by
  open Demo in
  have h2 : (after [10] 4 8 behind).Returned 2 (.push 8) (.nat 2) := returned_of rfl rfl
  have h3 : (after [10] 4 8 behind).Returned 3 (.get 2) (.elem none) := returned_of rfl rfl
  have h4 : (after [10] 4 8 behind).Panicked 4 (.index 2) .outOfBounds := panicked_of rfl rfl
  have h5 : (after [10] 4 8 behind).Returned 5 .len (.nat 1) := returned_of rfl rfl
  exact ⟨mem [10] 4 8, [10], after [10] 4 8 behind, mem_init _ _ _ (by decide) (by decide), reach_after behind_possible, h2,
    ⟨_, 1, 2, h2, rfl, by decide, by decide⟩, ⟨h3, before_of rfl rfl (by decide), .inl h3⟩,
    ⟨h4, before_of rfl rfl (by decide), .inr (.inl h4)⟩,
    ⟨h5, before_of rfl rfl (by decide), .inr (.inr ⟨_, _, 1, h5, rfl, by decide⟩)⟩, returned_of rfl rfl, before_of rfl rfl (by decide)⟩

section examples
open Demo

/-- For `C62_get_cloned` and `C62_why`. -/
example : Exec (mem [10] 4 8) [10] behind.length (fun t => after [10] 4 8 (behind.take t)) ∧
    (after [10] 4 8 behind).AddedBefore [10] 6 2 ∧ (after [10] 4 8 behind).Returned 6 (.getCloned 2) (.optVal (some 8)) ∧
    (after [10] 4 8 behind).Misses 3 2 ∧ (after [10] 4 8 behind).content 1 = none :=
  ⟨exec_after behind_possible, .inr ⟨2, ⟨_, 1, 2, returned_of (op := .push 8) rfl rfl, rfl, by decide, by decide⟩,
    before_of rfl rfl (by decide)⟩, returned_of rfl rfl, .inl (returned_of rfl rfl), rfl⟩

/-- For `C62_found_partial` and `C62_reported`: before call 5 all three elements were added, and a length of 3 was reported. -/
example : Possible [10] 4 8 reported ∧ (∀ j, j ≤ 2 → (after [10] 4 8 reported).AddedBefore [10] 3 j) ∧
    (∀ j, ¬ AccessedDuring (fun t => after [10] 4 8 (reported.take t)) reported.length 3 j) ∧
    (after [10] 4 8 reported).Returned 3 .len (.nat 3) ∧ (after [10] 4 8 reported).Before 3 5 ∧
    (after [10] 4 8 reported).w.mem.st 1 = .RESERVED ∧ (after [10] 4 8 reported).Returned 5 (.get 2) (.elem (some 2)) ∧
    (after [10] 4 8 reported).Returned 6 (.index 2) (.elem1 2) := by
  have hp : Possible [10] 4 8 reported := by unfold Possible; rfl
  refine ⟨hp, fun j hj => ?_, fun j ⟨t, e, op, _, hne, ho, _⟩ =>
    alone_of (by decide) (by decide) (reach_after hp) rfl e hne ho, returned_of rfl rfl, before_of rfl rfl (by decide), rfl, returned_of rfl rfl,
    returned_of rfl rfl⟩
  have : j = 0 ∨ j = 1 ∨ j = 2 := by omega
  rcases this with rfl | rfl | rfl
  · exact .inl (by decide)
  · exact .inr ⟨1, ⟨_, 1, 1, returned_of (op := .push 7) rfl rfl, rfl, by decide, by decide⟩, before_of rfl rfl (by decide)⟩
  · exact .inr ⟨2, ⟨_, 1, 2, returned_of (op := .push 8) rfl rfl, rfl, by decide, by decide⟩, before_of rfl rfl (by decide)⟩

end examples

end Verif
