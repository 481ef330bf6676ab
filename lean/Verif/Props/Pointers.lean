import Verif.Proof.Views
import Verif.Props.DemoViews

/-!
# Raw pointers and references: C40

`get_raw`, `get_ref`, `get_raw_mut`, `get_mut` are `getRaw` (they differ in the memory order and in what is done with the
pointer), `iter_ref`, `iter_mut` are `iterRef`. `deref i` is user code reading through such a pointer.
-/

namespace Verif

variable {α β : Type} {m : Mem α} {l : List α} {κ : Cfg α β}

/-- **C40.** Pointers are only given out for completely initialised positions: the position was initialised when the call
returned, and is at any later time. -/
theorem C40_initialised (hm : InitMem m l) (h : Reach m l κ) {c : Cid} {op : Op α β} {x : Ret α β}
    (hr : κ.Returned c op x) {i : Nat} (hi : i ∈ x.pointers) :
    (κ.content i).isSome ∧ ∀ mem, κ.AtEnd c mem → (mem.content i).isSome := by
  have hI := h.inv hm
  obtain ⟨ct, st, et, fin, hc⟩ := hr
  have hs := hI.status c _ hc
  obtain ⟨-, hIf, ⟨d, hL, ho⟩, he⟩ := hs
  have hp : (fin.spec.val i).isSome := (ho.reveals (P := fun i => (fin.spec.val i).isSome) LenOK.pub fun i hi =>
    hL.ev.pub _ ((hI.start c _ hc).needs i hi)).2 i hi
  refine ⟨by rw [hI.content_eq]; exact he.ev.pub i hp, ?_⟩
  rintro mem ⟨r, t, w, h1, h2, rfl⟩
  rw [hc] at h1
  simp only [Option.some.injEq] at h1
  subst h1
  simp only [Status.ended, Option.some.injEq, Prod.mk.injEq] at h2
  obtain ⟨rfl, rfl⟩ := h2
  rw [hIf.content_eq]
  exact hp

/-- **C40.** `get_raw(i)` and `get_ref(i)` only give access to position `i`; `slice.get_raw(i)` to the `i`-th position of the
slice; iterators over references give access to each position once, in order. -/
theorem C40_positions (hm : InitMem m l) (h : Reach m l κ) {c : Cid} {x : Ret α β} :
    (∀ o i, κ.Returned c (.getRaw o i) x → x = .ptr (some i) ∨ x = .ptr none) ∧
    (∀ s o i, κ.Returned c (.slGetRaw s o i) x →
      (∃ p, s.view[i]? = some p ∧ x = .ptr (some p)) ∨ x = .ptr none) ∧
    (∀ o, κ.Returned c (.iterRef o) x → ∃ ps : List Nat, x = .ptrs ps ∧ ps.Pairwise (· < ·)) ∧
    (∀ s o, κ.Returned c (.slIterRef s o) x → ∃ ps : List Nat, x = .ptrs ps ∧ ps.Pairwise (· < ·) ∧ ∀ p ∈ ps, p ∈ s.view) := by
  have hI := h.inv hm
  refine ⟨?_, ?_, ?_, ?_⟩
  · rintro o i ⟨ct, st, et, fin, hc⟩
    obtain ⟨d, hi⟩ := hI.returned hc
    obtain ⟨-, ⟨h1, -⟩ | ⟨h1, -⟩⟩ := hi.out
    · exact .inl h1
    · exact .inr h1
  · rintro s o i ⟨ct, st, et, fin, hc⟩
    obtain ⟨d, hi⟩ := hI.returned hc
    obtain ⟨-, ⟨h1, h2, -⟩ | ⟨h1, -⟩⟩ := hi.out
    · exact .inl ⟨s.a + i, by simp [Slc.view, h1], h2⟩
    · exact .inr h1
  · rintro o ⟨ct, st, et, fin, hc⟩
    obtain ⟨d, hi⟩ := hI.returned hc
    obtain ⟨-, n, ps, h1, h2, -⟩ := hi.out
    exact ⟨ps, h1, h2.sorted⟩
  · rintro s o ⟨ct, st, et, fin, hc⟩
    obtain ⟨d, hi⟩ := hI.returned hc
    obtain ⟨-, ps, h1, h2⟩ := hi.out
    refine ⟨ps, h1, h2.sorted, fun p hp => ?_⟩
    obtain ⟨k1, k2, -⟩ := h2.mem p hp
    rw [view_eq, List.mem_range'_1]
    exact ⟨k1, k2⟩

/-- **C40.** An element that was initialised when the call started is found, unless some overlapping call accesses
elements (see `C40_reader_hides`). -/
theorem C40_found {n : Nat} {κ : Nat → Cfg α β} (hm : InitMem m l) (h : Exec m l n κ) {c : Cid} {x : Ret α β} {mem : Mem α} {i : Nat}
    (hs : (κ n).AtStart c mem) (hv : (mem.content i).isSome)
    (hq : ∀ d op, (κ n).Overlap c d → (κ n).Called d op → ¬ op.Locks) :
    (∀ o, (κ n).Returned c (.getRaw o i) x → x = .ptr (some i)) ∧
    (∀ o, (κ n).Returned c (.iterRef o) x → i ∈ x.pointers) ∧
    (∀ s o, (κ n).Returned c (.slIterRef s o) x → i ∈ s.view → i ∈ x.pointers) := by
  have hI := h.inv hm (Nat.le_refl n)
  obtain ⟨r, hr, rfl⟩ := hs
  have hst := (hI.start c r hr).inv
  rw [hst.content_eq] at hv
  have hbusy : ∀ {fin : World α}, Evolves fin (κ n).w → ¬ ∃ d', Ev.busy c i d' ∈ fin.trace := by
    rintro fin hev ⟨d', hb⟩
    obtain ⟨-, h1, op, h2, h3⟩ := h.busy_locks hm (hev.trace.subset hb)
    exact hq d' op h1 h2 h3
  have hnone : r.start.spec.val i ≠ none := fun h => by rw [h] at hv; cases hv
  refine ⟨?_, ?_, ?_⟩
  · rintro o ⟨ct, st, et, fin, hc⟩
    rw [hc] at hr
    simp only [Option.some.injEq] at hr
    subst hr
    obtain ⟨d, hi⟩ := hI.returned hc
    obtain ⟨-, ⟨h1, -⟩ | ⟨h1, h2 | h2⟩⟩ := hi.out
    · exact h1
    · exact absurd h2 hnone
    · exact absurd h2 (hbusy hi.ev2)
  · rintro o ⟨ct, st, et, fin, hc⟩
    rw [hc] at hr
    simp only [Option.some.injEq] at hr
    subst hr
    obtain ⟨d, hi⟩ := hI.returned hc
    obtain ⟨-, k, ps, rfl, h2, h3⟩ := hi.out
    by_contra hmem
    have hlt : i < k := by
      rcases Nat.lt_or_ge i k with h | h
      · exact h
      · exact absurd (h3 i h) hnone
    rcases h2.missing i (Nat.zero_le _) (by omega) hmem with h4 | h4
    · exact hnone h4
    · exact hbusy hi.ev2 h4
  · rintro s o ⟨ct, st, et, fin, hc⟩ hview
    rw [hc] at hr
    simp only [Option.some.injEq] at hr
    subst hr
    obtain ⟨d, hi⟩ := hI.returned hc
    obtain ⟨-, ps, rfl, h2⟩ := hi.out
    by_contra hmem
    rw [view_eq, List.mem_range'_1] at hview
    rcases h2.missing i hview.1 hview.2 hmem with h4 | h4
    · exact hnone h4
    · exact hbusy hi.ev2 h4

/-- **C40.** If no call so far may write to position `i` (only growth and reads), reading its value, through a pointer or
otherwise, never races: no other call is about to write the value. -/
theorem C40_race_free (hm : InitMem m l) (h : Reach m l κ) {c d : Cid} {a : Act α} {i : Nat} 
    (hq : ∀ d op, κ.Called d op → ¬ op.MayWrite i) (h1 : κ.Next c (.valRead i)) (h2 : κ.Next d a) : ¬ a.WritesValue i := by
  intro hw
  have hI := h.inv hm
  obtain ⟨op1, -, hp1, -⟩ := hI.pre h1
  obtain ⟨op2, hrun, hp2, w', b, he, hev⟩ := hI.pre h2
  have hpub := hp1.1
  have hno := hq d op2 hrun.called
  cases a <;> simp only [Act.WritesValue] at hw
  case valWrite j v =>
    subst hw
    rcases hp2.2 with hh | hh
    · have hst : κ.w.mem.st i = .RESERVED := (hI.inv.lock i).2 (by simp [hh])
      obtain ⟨old, hold⟩ := Option.isSome_iff_exists.1 hpub
      have hval : κ.w.mem.val i = some old := by
        have := hI.inv.content_eq i
        rw [Mem.content, if_neg (by rw [hst]; exact fun h => by cases h), hold] at this
        exact this
      obtain ⟨-, h4 | h4⟩ := hev (.write d i old v) (by simp [Act.events, hst, hval])
      · cases h4
      · exact hno (h4.mayWrite rfl)
    · rw [hh.2.2.1] at hpub; cases hpub
  case valSwap j k =>
    obtain ⟨-, h4 | h4⟩ := hev (.swap d j k) (by simp [Act.events])
    · cases h4
    · exact hno (h4.mayWrite hw)

/-- **C40.** In a program of growth and reads, what is read through a pointer is the value of the position, which is the one
that was stored there first. -/
theorem C40_value {n : Nat} {κ : Nat → Cfg α β} (hm : InitMem m l) (h : Exec m l n κ) {c : Cid} {i : Nat} {x : Ret α β}
    (hq : ∀ d op, (κ n).Called d op → ¬ op.MayWrite i) (hr : (κ n).Returned c (.deref i) x) :
    ∃ v, x = .val v ∧ (κ n).content i = some v ∧ FirstValue κ n i v := by
  have hI := h.inv hm (Nat.le_refl n)
  obtain ⟨ct, st, et, fin, hc⟩ := hr
  obtain ⟨d, hi⟩ := hI.returned hc
  obtain ⟨v, rfl, rfl⟩ := hi.out
  have hdat : dataOf c (κ n).w.trace = [] ++ .read c i v :: [] := by simpa using hi.data
  obtain ⟨t, h1, -, -, -, h5, -⟩ := h.data_time hm hdat
  have hv : (κ t).content i = some v := by
    rw [(h.inv hm (by omega : t ≤ n)).content_eq]; exact h5
  have hstep : ∀ s, s < n → ∀ v, (κ s).content i = some v → (κ (s + 1)).content i = some v := by
    intro s hs v hv
    by_contra hne
    obtain ⟨e, d1, d2, -, -, k3, -, -, k6, -, k8 | ⟨d, w, rfl⟩⟩ := h.change hm hs (i := i) (by rw [hv]; exact Ne.symm hne)
    · have he : e ∈ (κ n).w.trace := (mem_dataOf.1 (by rw [k3]; simp : e ∈ dataOf e.cid (κ n).w.trace)).1
      obtain ⟨⟨op, ct, st, s⟩, hr, hw⟩ := hI.modifies he k8
      exact hq _ _ ⟨_, _, _, hr⟩ hw
    · rw [(h.inv hm (by omega : s ≤ n)).content_eq, k6.2.2] at hv
      cases hv
  have hkeep : ∀ s s', s ≤ s' → s' ≤ n → ∀ v, (κ s).content i = some v → (κ s').content i = some v := by
    intro s s' hs
    induction hs with
    | refl => exact fun _ _ h => h
    | @step k hk ih => exact fun hn v hv => hstep k (by omega) v (ih (by omega) v hv)
  refine ⟨v, rfl, hkeep t n (by omega) (Nat.le_refl n) v hv, ?_⟩
  by_contra hno
  have hnone : ∀ s, s ≤ t → (κ s).content i = none := by
    intro s
    induction s with
    | zero =>
      intro hs
      rcases hx : (κ 0).content i with _ | w
      · rfl
      · have := hkeep 0 t (by omega) (by omega) w hx
        rw [hv] at this
        exact absurd (.inl (by rw [hx, this])) hno
    | succ s ih =>
      intro hs
      rcases hx : (κ (s + 1)).content i with _ | w
      · rfl
      · have := hkeep (s + 1) t hs (by omega) w hx
        rw [hv] at this
        exact absurd (.inr ⟨s, by omega, ih (by omega), by rw [hx, this]⟩) hno
  rw [hnone t (Nat.le_refl t)] at hv
  cases hv

section examples

open Demo

/-- `get_raw(0)` while `get_cloned(0)` (a read) holds the element. -/
def Demo.peek : List (Choice Nat Nat) := [.call (.getCloned 0)] ++ go 1 4 ++ [.call (.getRaw .acquire 0)] ++ go 2 5

/-- Limit of C40: a concurrent read is enough to make `get_raw` and `get_ref` answer `None` for an element that was
initialised before the call and is so ever since. Hence the hypothesis of `C40_found`. -/
theorem C40_reader_hides : ∃ κ : Cfg Nat Nat, Reach (mem [10, 20] 2 8) [10, 20] κ ∧
    κ.Called 1 (.getCloned 0) ∧ κ.Returned 2 (.getRaw .acquire 0) (.ptr none) ∧
    (∃ mem, κ.AtStart 2 mem ∧ mem.content 0 = some 10) ∧ κ.content 0 = some 10 :=
  have hp : Possible [10, 20] 2 8 peek := by unfold Possible; rfl
  ⟨_, reach_after hp, ⟨_, _, _, rfl⟩, returned_of rfl rfl, ⟨_, ⟨_, rfl, rfl⟩, rfl⟩, rfl⟩

/-- A pointer is obtained, then read while `element.set(99)` is about to write. -/
def Demo.race : List (Choice Nat Nat) :=
  [.call (.getRaw .acquire 0)] ++ go 1 5 ++ [.call (.get 0)] ++ go 2 6 ++ [.call (.elSet 0 99), .go 3, .call (.deref 0)]

/-- C40 needs the restriction to growth and reads: with a safe `set` somewhere, reading through a pointer races. -/
theorem C40_writer_races : ∃ κ : Cfg Nat Nat, Reach (mem [10, 20] 2 8) [10, 20] κ ∧
    κ.Next 4 (.valRead 0) ∧ κ.Next 3 (.valWrite 0 99) :=
  have hp : Possible [10, 20] 2 8 race := by unfold Possible; rfl
  ⟨_, reach_after hp, ⟨_, _, _, _, _, rfl⟩, ⟨_, _, _, _, _, rfl⟩⟩

/-- A pointer to position 2 is obtained as soon as the push has stored its value, and read while another push, which needs
more capacity, is running. -/
def Demo.growRead : List (Choice Nat Nat) :=
  [.call (.push 30)] ++ go 1 6 ++ [.call (.getRaw .acquire 2)] ++ go 2 5 ++ [.call (.push 40)] ++ go 3 7 ++
    [.call (.deref 2)]

/-- C40, reading through a pointer in a program of growth and reads: the hypotheses of `C40_race_free` are met, with
another call about to write a value. -/
example : ∃ κ : Cfg Nat Nat, Reach (mem [10, 20] 3 8) [10, 20] κ ∧ (∀ d op, κ.Called d op → ¬ op.MayWrite 2) ∧
    κ.Returned 2 (.getRaw .acquire 2) (.ptr (some 2)) ∧ κ.Next 4 (.valRead 2) ∧ κ.Next 3 (.valWrite 3 40) := by
  have hp : Possible [10, 20] 3 8 growRead := by unfold Possible; rfl
  refine ⟨_, reach_after hp, fun d op hc => ?_, returned_of rfl rfl, ⟨_, _, _, _, _, rfl⟩, ⟨_, _, _, _, _, rfl⟩⟩
  have := called_of (by decide) (by decide) (reach_after hp)
    (ops := [.push 30, .getRaw .acquire 2, .push 40, .deref 2]) rfl hc
  simp only [List.mem_cons, List.not_mem_nil, or_false] at this
  rcases this with rfl | rfl | rfl | rfl <;> simp [Op.MayWrite]

/-- C40, the value read. -/
example : ∃ n κ, Exec (β := Nat) (mem [10, 20] 3 8) [10, 20] n κ ∧ (∀ d op, (κ n).Called d op → ¬ op.MayWrite 2) ∧
    (κ n).Returned 4 (.deref 2) (.val 30) := by
  have hp : Possible [10, 20] 3 8 (growRead ++ go 4 2) := by unfold Possible; rfl
  refine ⟨_, _, exec_after hp, fun d op hc => ?_, ?_⟩
  · have := called_of (by decide) (by decide) (reach_after hp)
      (ops := [.push 30, .getRaw .acquire 2, .push 40, .deref 2]) rfl (c := d) (op := op) hc
    simp only [List.mem_cons, List.not_mem_nil, or_false] at this
    rcases this with rfl | rfl | rfl | rfl <;> simp [Op.MayWrite]
  · exact returned_of rfl rfl

/-- C40, an element is found by a call that overlaps a push and nothing that accesses elements. -/
def Demo.pushing : List (Choice Nat Nat) := [.call (.push 30)] ++ go 1 4 ++ [.call (.iterRef .acquire)] ++ go 2 5

example : ∃ n κ, Exec (β := Nat) (mem [10, 20] 2 8) [10, 20] n κ ∧
    (∀ d op, (κ n).Overlap 2 d → (κ n).Called d op → ¬ op.Locks) ∧
    (∃ mem, (κ n).AtStart 2 mem ∧ mem.content 1 = some 20) ∧
    (κ n).Returned 2 (.iterRef .acquire) (.ptrs [0, 1]) ∧ (κ n).Running 1 (.push 30) := by
  have hp : Possible [10, 20] 2 8 pushing := by unfold Possible; rfl
  refine ⟨_, _, exec_after hp, fun d op _ hc => ?_, ?_, ?_, ?_⟩
  · have := called_of (by decide) (by decide) (reach_after hp) (ops := [.push 30, .iterRef .acquire]) rfl
      (c := d) (op := op) hc
    simp only [List.mem_cons, List.not_mem_nil, or_false] at this
    rcases this with rfl | rfl <;> simp [Op.Locks]
  · exact ⟨_, ⟨_, rfl, rfl⟩, rfl⟩
  · exact returned_of rfl rfl
  · exact ⟨_, _, _, rfl⟩

end examples

end Verif
