import Verif.Proof.Views
import Verif.Props.Safety
import Verif.Props.Len
import Verif.Props.DemoViews

/-!
# Slices: C27, C28, C29, C30, C31

`pick`, `Slc.view`, `Observes`, `Holding` are defined in `Spec/Views.lean`.
-/

namespace Verif

variable {α β : Type} {m : Mem α} {l : List α} {n : Nat} {κ : Nat → Cfg α β}

/-! ## C27 -/

/-- **C27.** `vec.slice(r)` views exactly the positions below an observed length that lie in the range, in order. -/
theorem C27_slice (hm : InitMem m l) (h : Exec m l n κ) {c : Cid} {r : Rng} {x : Ret α β}
    (hr : (κ n).Returned c (.slice r) x) :
    ∃ s len, x = .slc s ∧ (κ n).Observes c len ∧ s.view = pick r (List.range len) := by
  obtain ⟨ct, st, et, fin, hc⟩ := hr
  obtain ⟨d, hi⟩ := (h.inv hm (Nat.le_refl n)).returned hc
  obtain ⟨len, hl, rfl, -⟩ := hi.out
  refine ⟨_, len, rfl, h.observes hm hc rfl rfl hl, ?_⟩
  rw [← view_range, ← view_slice]
  simp [Slc.slice]

/-- **C27.** The number of elements of `vec.slice(a..b)`, and where it starts. -/
theorem C27_bounds (hm : InitMem m l) (h : Exec m l n κ) {c : Cid} {a b : Nat} {s : Slc}
    (hr : (κ n).Returned c (.slice ⟨.incl a, .excl b⟩) (.slc s)) :
    ∃ len, (κ n).Observes c len ∧ s.view.length = min b len - a ∧ ∀ p ∈ s.view.head?, p = a := by
  obtain ⟨s', len, hx, ho, hv⟩ := C27_slice hm h hr
  cases hx
  refine ⟨len, ho, ?_⟩
  rw [hv, pick_eq, List.length_range]
  simp only [rangeLimits]
  constructor
  · simp; omega
  · intro p hp
    rw [List.head?_drop] at hp
    simp only [Option.mem_def] at hp
    have hlt := List.getElem?_eq_some_iff.1 hp
    obtain ⟨h1, h2⟩ := hlt
    simp at h1 h2
    omega

/-- **C27.** `vec.as_slice()` views everything. -/
theorem C27_as_slice (hm : InitMem m l) (h : Exec m l n κ) {c : Cid} {x : Ret α β}
    (hr : (κ n).Returned c .asSlice x) :
    ∃ s len, x = .slc s ∧ (κ n).Observes c len ∧ s.view = List.range len := by
  obtain ⟨ct, st, et, fin, hc⟩ := hr
  obtain ⟨d, hi⟩ := (h.inv hm (Nat.le_refl n)).returned hc
  obtain ⟨len, hl, rfl, -⟩ := hi.out
  exact ⟨_, len, rfl, h.observes hm hc rfl rfl hl, view_range len⟩

/-- **C27.** `vec.slice(..)` views everything. -/
theorem C27_full (hm : InitMem m l) (h : Exec m l n κ) {c : Cid} {x : Ret α β}
    (hr : (κ n).Returned c (.slice ⟨.unb, .unb⟩) x) :
    ∃ s len, x = .slc s ∧ (κ n).Observes c len ∧ s.view = List.range len := by
  obtain ⟨s, len, hx, ho, hv⟩ := C27_slice hm h hr
  refine ⟨s, len, hx, ho, ?_⟩
  rw [hv, pick_eq]
  simp [rangeLimits]

/-- **C27.** Slicing never panics, whatever the bounds. -/
theorem C27_no_panic (hm : InitMem m l) {κ : Cfg α β} (h : Reach m l κ) {c : Cid} {op : Op α β} {k : PanicKind}
    (hp : κ.Panicked c op k) : (∀ r, op ≠ .slice r) ∧ op ≠ .asSlice ∧ ∀ s r, op ≠ .slSlice s r := by
  obtain ⟨ct, st, et, fin, hc⟩ := hp
  obtain ⟨U, d, hi⟩ := (h.inv hm).panicked hc
  have ho := hi.out
  refine ⟨?_, ?_, ?_⟩
  · rintro r rfl; exact ho
  · rintro rfl; exact ho
  · rintro s r rfl; exact ho

/-- **C27.** If nobody disturbs the call, the slice holds the elements of the vector at the indices in the range. -/
theorem C27_values (hm : InitMem m l) (h : Exec m l n κ) {c : Cid} {r : Rng} {s : Slc} {vs : List α} {mem : Mem α}
    (hr : (κ n).Returned c (.slice r) (.slc s)) (hh : (κ n).Holding c vs) (he : (κ n).AtEnd c mem) :
    s.view.map mem.content = (pick r vs).map some := by
  obtain ⟨s', len, hx, ho, hv⟩ := C27_slice hm h hr
  cases hx
  have hlen := ho.exact vs hh
  subst hlen
  obtain ⟨rc, t, w, hc, hend, rfl⟩ := he
  obtain ⟨e1, e2, e3, e4, e5⟩ := h.ends hm hc hend
  have hcont : (List.range vs.length).map w.mem.content = vs.map some := by
    obtain ⟨⟨⟨mem, ⟨r', hr', rfl⟩, hl⟩, hq⟩, -⟩ := hh
    rw [hc] at hr'
    simp only [Option.some.injEq] at hr'
    subst hr'
    apply List.ext_getElem (by simp)
    intro i h1 h2
    have hi : i < vs.length := by simpa using h1
    simp only [List.getElem_map, List.getElem_range]
    rw [e4]
    refine h.window_keep hm hc (s := rc.callT) (Nat.le_refl _) (by omega) e5 (by omega) ?_ ?_
    · show (κ rc.callT).w.mem.content i = _
      rw [← e3, hl.1 i hi, List.getElem?_eq_getElem hi]
    · intro d op hd hov
      by_cases hdc : d = c
      · subst hdc
        have := Cfg.Called.unique (op := op) hd hr.called
        rw [← this]; exact id
      · exact (hq d op hdc hov hd).2 i
  have hpm : ∀ {γ δ : Type} (f : γ → δ) (xs : List γ), pick r (xs.map f) = (pick r xs).map f := by
    intro γ δ f xs
    simp [pick_eq, List.map_take, List.map_drop]
  rw [hv, ← hpm, hcont, hpm]

/-! ## C28 -/

/-- **C28.** `slice.slice(r)` views the same elements as slicing the list of the elements of the slice. -/
theorem C28_slice (hm : InitMem m l) {κ : Cfg α β} (h : Reach m l κ) {c : Cid} {s : Slc} {r : Rng} {x : Ret α β}
    (hr : κ.Returned c (.slSlice s r) x) : ∃ t, x = .slc t ∧ t.view = pick r s.view := by
  obtain ⟨ct, st, et, fin, hc⟩ := hr
  obtain ⟨d, hi⟩ := (h.inv hm).returned hc
  obtain ⟨rfl, -⟩ := hi.out
  exact ⟨_, rfl, view_slice s r⟩

/-- The slice `t` was obtained from `s` by successive calls of `slice` with the given ranges. -/
inductive Nested (κ : Cfg α β) : Slc → List Rng → Slc → Prop where
  | self (s : Slc) : Nested κ s [] s
  | sub {s s' t : Slc} {r : Rng} {rs : List Rng} (c : Cid) (hr : κ.Returned c (.slSlice s r) (.slc s'))
      (ht : Nested κ s' rs t) : Nested κ s (r :: rs) t

/-- **C28.** Slicing to any depth is slicing the list of elements as often. -/
theorem C28_nested (hm : InitMem m l) {κ : Cfg α β} (h : Reach m l κ) {s t : Slc} {rs : List Rng}
    (hn : Nested κ s rs t) : t.view = rs.foldl (fun xs r => pick r xs) s.view := by
  induction hn with
  | self => rfl
  | sub c hr _ ih =>
    obtain ⟨t, hx, ht⟩ := C28_slice hm h hr
    cases hx
    rw [ih, ht]
    rfl

/-- **C28.** A sub-slice, of any depth, never leaves its parent: what it views is a part of what the parent views, in
the same order. -/
theorem C28_within (hm : InitMem m l) {κ : Cfg α β} (h : Reach m l κ) {s t : Slc} {rs : List Rng}
    (hn : Nested κ s rs t) : t.view.Sublist s.view := by
  induction hn with
  | self => exact List.Sublist.refl _
  | @sub s s' t r rs c hr _ ih =>
    obtain ⟨t, hx, ht⟩ := C28_slice hm h hr
    cases hx
    refine ih.trans ?_
    rw [ht, pick_eq]
    exact (List.drop_sublist _ _).trans (List.take_sublist _ _)

/-! ## C29 -/

/-- **C29.** The positions that a slice (or another result) gives access to stay valid and initialised in all later
configurations, however the vector grows, and always lie within the allocated storage. -/
theorem C29_valid (hm : InitMem m l) (h : Exec m l n κ) {s t : Nat} (hst : s ≤ t) (ht : t ≤ n) {c : Cid} {op : Op α β}
    {x : Ret α β} (hr : (κ s).Returned c op x) {i : Nat} (hi : i ∈ x.elements) :
    ((κ t).content i).isSome ∧ i < (κ t).w.mem.cap := by
  have h1 := C13_has_value hm (h.reach (by omega : s ≤ n)) hr hi
  have h2 := h.keep_some hm hst ht h1
  refine ⟨h2, ?_⟩
  have hI := h.inv hm ht
  rw [hI.content_eq] at h2
  exact hI.inv.pub_cap i h2

/-- **C29.** The elements of a slice keep their values as long as nobody writes to them, however the vector grows. -/
theorem C29_values (hm : InitMem m l) (h : Exec m l n κ) {s t : Nat} (hst : s ≤ t) (ht : t ≤ n) {sl : Slc} {vs : List α}
    (hv : sl.view.map (κ s).content = vs.map some)
    (hw : ∀ c op, (κ t).Called c op → ∀ i ∈ sl.view, ¬ op.MayWrite i) :
    sl.view.map (κ t).content = vs.map some := by
  rw [← hv]
  apply List.map_congr_left
  intro i hi
  have : ∃ v, (κ s).content i = some v := by
    have : (κ s).content i ∈ vs.map some := by rw [← hv]; exact List.mem_map_of_mem hi
    obtain ⟨v, -, hv⟩ := List.mem_map.1 this
    exact ⟨v, hv.symm⟩
  obtain ⟨v, hv⟩ := this
  rw [hv]
  exact h.keep hm hst ht hv fun c op hc => hw c op hc i hi

/-- **C29.** `slice.len()`, `slice.is_empty()`, `slice.get(i)`, `slice[i]` and `slice.iter()` only depend on the positions
viewed by the slice: they are the length, the members and the enumeration of `s.view`, no matter when they are called. -/
theorem C29_stable (hm : InitMem m l) {κ : Cfg α β} (h : Reach m l κ) {c : Cid} {s : Slc} {x : Ret α β} :
    (κ.Returned c (.slLen s) x → x = .nat s.view.length) ∧
    (κ.Returned c (.slIsEmpty s) x → x = .bool s.view.isEmpty) ∧
    (∀ i, κ.Returned c (.slGet s i) x → x = .elem s.view[i]?) ∧
    (∀ i, κ.Returned c (.slIndex s i) x → ∃ e, s.view[i]? = some e ∧ x = .elem1 e) ∧
    (κ.Returned c (.slIter s) x → x = .elems s.view) := by
  have hI := h.inv hm
  have hget : ∀ i, s.view[i]? = if i < s.len then some (s.a + i) else none := by
    intro i
    unfold Slc.view
    by_cases hi : i < s.len
    · simp [hi]
    · simp [hi]
  refine ⟨?_, ?_, ?_, ?_, ?_⟩
  · rintro ⟨ct, st, et, fin, hc⟩
    obtain ⟨d, hi⟩ := hI.returned hc
    obtain ⟨rfl, -⟩ := hi.out
    simp [Slc.view]
  · rintro ⟨ct, st, et, fin, hc⟩
    obtain ⟨d, hi⟩ := hI.returned hc
    obtain ⟨rfl, -⟩ := hi.out
    congr 1
    rw [Bool.eq_iff_iff]
    simp [Slc.view]
  · rintro i ⟨ct, st, et, fin, hc⟩
    obtain ⟨d, hi⟩ := hI.returned hc
    obtain ⟨rfl, -⟩ := hi.out
    rw [hget]
  · rintro i ⟨ct, st, et, fin, hc⟩
    obtain ⟨d, hi⟩ := hI.returned hc
    obtain ⟨hlt, rfl, -⟩ := hi.out
    exact ⟨_, by rw [hget, if_pos hlt], rfl⟩
  · rintro ⟨ct, st, et, fin, hc⟩
    obtain ⟨d, hi⟩ := hI.returned hc
    obtain ⟨rfl, -⟩ := hi.out
    rw [view_eq]

/-- **C29.** `slice.get_cloned(i)` returns a value that the `i`-th element of the slice had at some moment of the call;
`None` exactly if the slice has no such element. -/
theorem C29_get_cloned (hm : InitMem m l) (h : Exec m l n κ) {c : Cid} {s : Slc} {i : Nat} {x : Ret α β}
    (hr : (κ n).Returned c (.slGetCloned s i) x) :
    (∃ p v t, s.view[i]? = some p ∧ x = .optVal (some v) ∧ (κ n).During c t ∧ (κ t).content p = some v) ∨
    (s.view[i]? = none ∧ x = .optVal none) := by
  obtain ⟨ct, st, et, fin, hc⟩ := hr
  obtain ⟨d, hi⟩ := (h.inv hm (Nat.le_refl n)).returned hc
  rcases hi.out with ⟨hlt, v, rfl, rfl⟩ | ⟨hge, rfl, -⟩
  · obtain ⟨t, h1, h2, h3⟩ := h.read_genuine hm (a := s.a + i) (xs := [v]) (j := 0) (v := v) hi.data rfl
    exact .inl ⟨s.a + i, v, t, by simp [Slc.view, hlt], rfl, h2, h3⟩
  · exact .inr ⟨by simp [Slc.view, hge], rfl⟩

/-- The slice on which a slice method is called. -/
def Op.onSlice : Op α β → Option Slc
  | .slLen s | .slIsEmpty s | .slGet s _ | .slIndex s _ | .slGetCloned s _ | .slIter s | .slIterCloned s
  | .slMap s _ | .slFilter s _ | .slFold s _ _ | .slVisit s _ _ | .slReduce s _ | .slIndexOf s _ _ | .slContains s _ _
  | .slEqList s _ _ | .slDebug s _ | .slSlice s _ | .slSplitAt s _ | .slSplitFirst s | .slSplitLast s
  | .slChunks s _ | .slGetRaw s _ _ | .slIterRef s _ | .slSwap _ s _ _ | .slFill s _ | .slFillWith s _ => some s
  | _ => none

theorem mem_view {s : Slc} {i : Nat} : i ∈ s.view ↔ s.a ≤ i ∧ i < s.a + s.len := by
  rw [view_eq, List.mem_range'_1]

theorem mem_selected {f : α → Option Bool} : ∀ {a : Nat} {vs : List α} {i : Nat}, i ∈ selected f a vs →
    a ≤ i ∧ i < a + vs.length
  | a, [], i, h => by simp [selected] at h
  | a, v :: vs, i, h => by
    have ih := @mem_selected f (a + 1) vs i
    simp only [selected] at h
    split at h
    · simp only [List.mem_cons] at h
      rcases h with rfl | h
      · simp
      · have := ih h; simp; omega
    · have := ih h; simp; omega

/-- **C29.** A method of a slice gives no access to elements outside of the slice. -/
theorem C29_within (hm : InitMem m l) {κ : Cfg α β} (h : Reach m l κ) {c : Cid} {op : Op α β} {s : Slc} {x : Ret α β}
    (hop : op.onSlice = some s) (hr : κ.Returned c op x) {i : Nat} (hx : i ∈ x.elements ∨ i ∈ x.pointers) :
    i ∈ s.view := by
  obtain ⟨ct, st, et, fin, hc⟩ := hr
  obtain ⟨d, hi⟩ := (h.inv hm).returned hc
  have ho := hi.out
  have hsub : ∀ (r : Rng) i, i ∈ positions (s.slice r).a (s.slice r).len → i ∈ s.view := by
    intro r i hi
    rw [show positions (s.slice r).a (s.slice r).len = pick r s.view by rw [← view_slice, view_eq], pick_eq] at hi
    exact List.mem_of_mem_take (List.mem_of_mem_drop hi)
  have triv : x.elements = [] → x.pointers = [] → i ∈ s.view := by
    intro h1 h2; rw [h1, h2] at hx; simp at hx
  cases op <;> simp only [Op.onSlice, Option.some.injEq, reduceCtorEq] at hop <;> subst hop <;>
    simp only [Op.Outcome] at ho
  case slGet s i' =>
    obtain ⟨rfl, -⟩ := ho
    rw [mem_view]
    split at hx <;> simp [Ret.elements, Ret.pointers] at hx
    omega
  case slIndex s i' =>
    obtain ⟨hlt, rfl, -⟩ := ho
    simp [Ret.elements, Ret.pointers] at hx
    rw [mem_view]; omega
  case slIter s =>
    obtain ⟨rfl, -⟩ := ho
    simp only [Ret.elements, Ret.pointers, List.not_mem_nil, or_false] at hx
    rw [view_eq]; exact hx
  case slFilter s f =>
    obtain ⟨l, rfl, vs, h1, h2, h3, rfl⟩ := ho
    simp only [Ret.elements, Ret.pointers, List.not_mem_nil, or_false] at hx
    have := mem_selected hx
    rw [mem_view]; omega
  case slSlice s r =>
    obtain ⟨rfl, -⟩ := ho
    simp only [Ret.elements, Ret.pointers, List.not_mem_nil, or_false] at hx
    exact hsub _ _ hx
  case slSplitAt s mid =>
    obtain ⟨hle, rfl, -⟩ := ho
    simp only [Ret.elements, Ret.pointers, List.not_mem_nil, or_false, List.mem_append, List.mem_range'_1] at hx
    rw [mem_view]; omega
  case slSplitFirst s =>
    obtain ⟨-, ⟨-, rfl⟩ | ⟨h0, rfl⟩⟩ := ho
    · exact triv rfl rfl
    · simp only [Ret.elements, Ret.pointers, List.not_mem_nil, or_false, List.mem_cons, List.mem_range'_1] at hx
      rw [mem_view]; omega
  case slSplitLast s =>
    obtain ⟨-, ⟨-, rfl⟩ | ⟨h0, rfl⟩⟩ := ho
    · exact triv rfl rfl
    · simp only [Ret.elements, Ret.pointers, List.not_mem_nil, or_false, List.mem_cons, List.mem_range'_1] at hx
      rw [mem_view]; omega
  case slChunks s k =>
    obtain ⟨-, -, rfl⟩ := ho
    simp only [Ret.elements, Ret.pointers, List.not_mem_nil, or_false, List.mem_flatMap, List.mem_map] at hx
    obtain ⟨t, ⟨j, -, rfl⟩, hx⟩ := hx
    exact hsub _ _ hx
  case slGetRaw s o i' =>
    obtain ⟨-, ⟨h1, rfl, -⟩ | ⟨rfl, -⟩⟩ := ho
    · simp [Ret.elements, Ret.pointers] at hx
      rw [mem_view]; omega
    · exact triv rfl rfl
  case slIterRef s o =>
    obtain ⟨-, l, rfl, hl⟩ := ho
    simp only [Ret.elements, Ret.pointers, List.not_mem_nil, false_or] at hx
    have := hl.mem i hx
    rw [mem_view]; omega
  all_goals (refine triv ?_ ?_ <;> grind [Ret.elements, Ret.pointers])

/-- **C29.** A method of a slice changes no element outside of the slice. -/
theorem C29_writes_within (hm : InitMem m l) (h : Exec m l n κ) {c : Cid} {op : Op α β} {s : Slc}
    (hop : op.onSlice = some s) (hc : (κ n).Called c op) {t : Nat} (ht : t < n) (hmv : (κ t).Moves c (κ (t + 1))) {i : Nat}
    (hne : (κ t).content i ≠ (κ (t + 1)).content i) : i ∈ s.view := by
  obtain ⟨e, d1, d2, h1, h2, h3, h4, h5, h6, h7, h8⟩ := h.change hm ht hne
  have hcid : e.cid = c := by
    obtain ⟨r, hr, ⟨a, again, k, w', b, k1, k2, k3⟩ | ⟨x, k1, k3⟩ | ⟨x, k1, k3⟩⟩ := hmv
    · unfold Happens at h1
      rw [k3] at h1
      simp only [exec_trace k2] at h1
      have := List.append_cancel_left h1
      exact events_cid (by rw [this]; simp)
    · rw [k3] at hne; exact absurd rfl hne
    · rw [k3] at hne; exact absurd rfl hne
  obtain ⟨ct, st, ss, hc⟩ := hc
  rw [hcid] at h3
  have hall := (h.inv hm (Nat.le_refl n)).hist hc h3
  rw [mem_view]
  rcases h8 with h8 | ⟨c', v, rfl⟩
  · cases e <;> simp only [Ev.Modifies] at h8
    · subst h8
      cases op <;> simp only [Op.onSlice, Option.some.injEq, reduceCtorEq] at hop <;> subst hop <;>
        simp only [Op.Allows] at hall
      · exact ⟨hall.1, hall.2.1⟩
      · exact ⟨hall.1, hall.2.1⟩
    · cases op <;> simp only [Op.onSlice, Option.some.injEq, reduceCtorEq] at hop <;> subst hop <;>
        simp only [Op.Allows] at hall
      omega
  · cases op <;> simp only [Op.onSlice, Option.some.injEq, reduceCtorEq] at hop <;> simp only [Op.Allows] at hall

/-! ## C30 -/

/-- **C30.** `vec.split_at(mid)` yields the first `mid` and the remaining elements. -/
theorem C30_split_at (hm : InitMem m l) (h : Exec m l n κ) {c : Cid} {mid : Nat} {x : Ret α β}
    (hr : (κ n).Returned c (.splitAt mid) x) :
    ∃ s t len, x = .slc2 s t ∧ (κ n).Observes c len ∧ mid ≤ len ∧
      s.view = (List.range len).take mid ∧ t.view = (List.range len).drop mid := by
  obtain ⟨ct, st, et, fin, hc⟩ := hr
  obtain ⟨d, hi⟩ := (h.inv hm (Nat.le_refl n)).returned hc
  obtain ⟨len, hl, hle, rfl, -⟩ := hi.out
  refine ⟨_, _, len, rfl, h.observes hm hc rfl rfl hl, hle, ?_, ?_⟩
  · rw [view_range, List.take_range, Nat.min_eq_left hle]
  · rw [view_eq, List.range_eq_range', List.drop_range']
    simp

/-- **C30.** `vec.split_at(mid)` panics only if `mid` exceeds the observed length. -/
theorem C30_split_at_panic (hm : InitMem m l) (h : Exec m l n κ) {c : Cid} {mid : Nat} {k : PanicKind}
    (hp : (κ n).Panicked c (.splitAt mid) k) : ∃ len, (κ n).Observes c len ∧ len < mid := by
  obtain ⟨ct, st, et, fin, hc⟩ := hp
  obtain ⟨U, d, hi⟩ := (h.inv hm (Nat.le_refl n)).panicked hc
  obtain ⟨-, -, -, len, hl, hlt⟩ := hi.out
  exact ⟨len, h.observes hm hc rfl rfl hl, hlt⟩

/-- **C30.** `vec.split_first()` yields the first element and the rest; `None` exactly on empty. -/
theorem C30_split_first (hm : InitMem m l) (h : Exec m l n κ) {c : Cid} {x : Ret α β}
    (hr : (κ n).Returned c .splitFirst x) :
    ∃ o len, x = .elemSlc o ∧ (κ n).Observes c len ∧
      match o with
      | none => len = 0
      | some (e, s) => List.range len = e :: s.view := by
  obtain ⟨ct, st, et, fin, hc⟩ := hr
  obtain ⟨d, hi⟩ := (h.inv hm (Nat.le_refl n)).returned hc
  obtain ⟨-, ⟨hl, rfl⟩ | ⟨len, hl, h0, rfl⟩⟩ := hi.out
  · exact ⟨_, 0, rfl, h.observes hm hc rfl rfl hl, rfl⟩
  · refine ⟨_, len, rfl, h.observes hm hc rfl rfl hl, ?_⟩
    simp only
    rw [view_eq, List.range_eq_range']
    obtain ⟨k, rfl⟩ : ∃ k, len = k + 1 := ⟨len - 1, by omega⟩
    simp [List.range'_succ]

/-- **C30.** `vec.split_last()` yields the last element and the rest; `None` exactly on empty. -/
theorem C30_split_last (hm : InitMem m l) (h : Exec m l n κ) {c : Cid} {x : Ret α β}
    (hr : (κ n).Returned c .splitLast x) :
    ∃ o len, x = .elemSlc o ∧ (κ n).Observes c len ∧
      match o with
      | none => len = 0
      | some (e, s) => List.range len = s.view ++ [e] := by
  obtain ⟨ct, st, et, fin, hc⟩ := hr
  obtain ⟨d, hi⟩ := (h.inv hm (Nat.le_refl n)).returned hc
  obtain ⟨-, ⟨hl, rfl⟩ | ⟨len, hl, h0, rfl⟩⟩ := hi.out
  · exact ⟨_, 0, rfl, h.observes hm hc rfl rfl hl, rfl⟩
  · refine ⟨_, len, rfl, h.observes hm hc rfl rfl hl, ?_⟩
    simp only
    obtain ⟨k, rfl⟩ : ∃ k, len = k + 1 := ⟨len - 1, by omega⟩
    rw [List.range_succ]
    simp [view_range]

/-- **C30.** The same for slices: `slice.split_at(mid)` yields the first `mid` and the remaining elements of the slice. -/
theorem C30_slice_split_at (hm : InitMem m l) {κ : Cfg α β} (h : Reach m l κ) {c : Cid} {s : Slc} {mid : Nat} {x : Ret α β}
    (hr : κ.Returned c (.slSplitAt s mid) x) :
    ∃ t u, x = .slc2 t u ∧ mid ≤ s.view.length ∧ t.view = s.view.take mid ∧ u.view = s.view.drop mid := by
  obtain ⟨ct, st, et, fin, hc⟩ := hr
  obtain ⟨d, hi⟩ := (h.inv hm).returned hc
  obtain ⟨hle, rfl, -⟩ := hi.out
  refine ⟨_, _, rfl, by simpa [Slc.view] using hle, ?_, ?_⟩
  · simp only [Slc.view]
    rw [← List.map_take, List.take_range, Nat.min_eq_left hle]
  · rw [view_eq, view_eq, List.drop_range']
    simp

/-- **C30.** `slice.split_at(mid)` panics only if `mid` exceeds the length of the slice. -/
theorem C30_slice_split_at_panic (hm : InitMem m l) {κ : Cfg α β} (h : Reach m l κ) {c : Cid} {s : Slc} {mid : Nat}
    {k : PanicKind} (hp : κ.Panicked c (.slSplitAt s mid) k) : s.view.length < mid := by
  obtain ⟨ct, st, et, fin, hc⟩ := hp
  obtain ⟨U, d, hi⟩ := (h.inv hm).panicked hc
  obtain ⟨-, -, -, hlt⟩ := hi.out
  simpa [Slc.view] using hlt

/-- **C30.** `slice.split_first()` and `slice.split_last()`. -/
theorem C30_slice_first_last (hm : InitMem m l) {κ : Cfg α β} (h : Reach m l κ) {c : Cid} {s : Slc} {x : Ret α β} :
    (κ.Returned c (.slSplitFirst s) x → ∃ o, x = .elemSlc o ∧
      match o with
      | none => s.view = []
      | some (e, t) => s.view = e :: t.view) ∧
    (κ.Returned c (.slSplitLast s) x → ∃ o, x = .elemSlc o ∧
      match o with
      | none => s.view = []
      | some (e, t) => s.view = t.view ++ [e]) := by
  have hI := h.inv hm
  obtain ⟨a, len⟩ := s
  constructor
  · rintro ⟨ct, st, et, fin, hc⟩
    obtain ⟨d, hi⟩ := hI.returned hc
    obtain ⟨-, ⟨hl, rfl⟩ | ⟨h0, rfl⟩⟩ := hi.out
    · simp only at hl
      subst hl
      exact ⟨_, rfl, rfl⟩
    · refine ⟨_, rfl, ?_⟩
      simp only at h0
      obtain ⟨k, rfl⟩ : ∃ k, len = k + 1 := ⟨len - 1, by omega⟩
      simp [view_eq, List.range'_succ]
  · rintro ⟨ct, st, et, fin, hc⟩
    obtain ⟨d, hi⟩ := hI.returned hc
    obtain ⟨-, ⟨hl, rfl⟩ | ⟨h0, rfl⟩⟩ := hi.out
    · simp only at hl
      subst hl
      exact ⟨_, rfl, rfl⟩
    · refine ⟨_, rfl, ?_⟩
      simp only at h0
      obtain ⟨k, rfl⟩ : ∃ k, len = k + 1 := ⟨len - 1, by omega⟩
      simp [Slc.view, List.range_succ]

/-! ## C31 -/

/-- **C31.** `vec.chunks(k)` cuts the whole sequence into pieces of `k` elements. -/
theorem C31_chunks (hm : InitMem m l) (h : Exec m l n κ) {c : Cid} {k : Nat} {x : Ret α β}
    (hr : (κ n).Returned c (.chunks k) x) :
    ∃ ss len, x = .slcs ss ∧ (κ n).Observes c len ∧ 0 < k ∧ Chunked k (List.range len) ss := by
  obtain ⟨ct, st, et, fin, hc⟩ := hr
  obtain ⟨d, hi⟩ := (h.inv hm (Nat.le_refl n)).returned hc
  obtain ⟨len, hl, hk, -, rfl⟩ := hi.out
  refine ⟨_, len, rfl, h.observes hm hc rfl rfl hl, hk, ?_⟩
  have := chunked ⟨0, len⟩ hk
  rw [view_range] at this
  exact this

/-- **C31.** `slice.chunks(k)` cuts the slice into pieces of `k` elements. -/
theorem C31_slice_chunks (hm : InitMem m l) {κ : Cfg α β} (h : Reach m l κ) {c : Cid} {s : Slc} {k : Nat} {x : Ret α β}
    (hr : κ.Returned c (.slChunks s k) x) : ∃ ss, x = .slcs ss ∧ 0 < k ∧ Chunked k s.view ss := by
  obtain ⟨ct, st, et, fin, hc⟩ := hr
  obtain ⟨d, hi⟩ := (h.inv hm).returned hc
  obtain ⟨hk, -, rfl⟩ := hi.out
  exact ⟨_, rfl, hk, chunked s hk⟩

/-- **C31.** `chunks(k)` panics only if `k = 0` (and by the above it does not return then). -/
theorem C31_panic (hm : InitMem m l) {κ : Cfg α β} (h : Reach m l κ) {c : Cid} {k : Nat} {p : PanicKind} :
    (κ.Panicked c (.chunks k) p → k = 0) ∧ ∀ s, κ.Panicked c (.slChunks s k) p → k = 0 := by
  have hI := h.inv hm
  constructor
  · rintro ⟨ct, st, et, fin, hc⟩
    obtain ⟨U, d, hi⟩ := hI.panicked hc
    exact hi.out.2.2.2
  · rintro s ⟨ct, st, et, fin, hc⟩
    obtain ⟨U, d, hi⟩ := hI.panicked hc
    exact hi.out.2.2.2

section examples
open Demo

/-- `slice(1..=3)` and a slice of it, then the vector grows, then the slices are used and the vector is split. -/
def Demo.slices : List (Choice Nat Nat) :=
  [.call (.slice ⟨.incl 1, .incl 3⟩)] ++ go 1 5 ++ [.call (.slSlice ⟨1, 3⟩ ⟨.incl 1, .unb⟩)] ++ go 2 1 ++
  [.call (.push 60)] ++ go 3 10 ++ [.call (.slIter ⟨2, 2⟩)] ++ go 4 1 ++ [.call (.splitAt 2)] ++ go 5 14 ++
  [.call .splitFirst] ++ go 6 14 ++ [.call .splitLast] ++ go 7 14 ++ [.call (.chunks 4)] ++ go 8 13 ++
  [.call (.slChunks ⟨1, 3⟩ 2)] ++ go 9 1 ++ [.call (.slGetCloned ⟨2, 2⟩ 1)] ++ go 10 5 ++
  [.call (.slSplitAt ⟨1, 3⟩ 4)] ++ go 11 1 ++ [.call (.splitAt 7)] ++ go 12 5 ++ [.call (.chunks 0)] ++ go 13 1 ++
  [.call (.slFill ⟨1, 3⟩ 9)] ++ go 14 10

theorem Demo.slices_possible : Possible [10, 20, 30, 40, 50] 5 8 slices := by unfold Possible; rfl

/-- C27: the slice `1..=3` of a vector with five elements, taken by a call which nobody disturbs. -/
example : ∃ κ : Cfg Nat Nat, Reach (mem [10, 20, 30, 40, 50] 5 8) [10, 20, 30, 40, 50] κ ∧
    κ.Returned 1 (.slice ⟨.incl 1, .incl 3⟩) (.slc ⟨1, 3⟩) ∧ κ.Holding 1 [10, 20, 30, 40, 50] ∧
    (⟨1, 3⟩ : Slc).view = [1, 2, 3] ∧ pick ⟨.incl 1, .incl 3⟩ [10, 20, 30, 40, 50] = [20, 30, 40] :=
  have hp : Possible [10, 20, 30, 40, 50] 5 8 (slices.take 6) := by unfold Possible; rfl
  ⟨after [10, 20, 30, 40, 50] 5 8 (slices.take 6), reach_after hp, returned_of rfl rfl,
    holding_alone (by decide) (by decide) (reach_after hp) ⟨_, rfl, rfl⟩ (leading_of rfl rfl) rfl, rfl, rfl⟩

/-- C27: ranges that reach beyond the end are clamped. -/
example : pick ⟨.excl 1, .excl 99⟩ [10, 20, 30, 40, 50] = [30, 40, 50] ∧
    pick ⟨.incl 7, .excl 9⟩ [10, 20, 30, 40, 50] = [] := ⟨rfl, rfl⟩

/-- C28, C29: a slice of the slice, used after the vector has grown. -/
example : ∃ κ : Cfg Nat Nat, Reach (mem [10, 20, 30, 40, 50] 5 8) [10, 20, 30, 40, 50] κ ∧
    Nested κ ⟨1, 3⟩ [⟨.incl 1, .unb⟩] ⟨2, 2⟩ ∧ κ.Returned 3 (.push 60) (.nat 5) ∧
    κ.Returned 4 (.slIter ⟨2, 2⟩) (.elems [2, 3]) ∧ κ.Before 3 4 ∧
    κ.Returned 10 (.slGetCloned ⟨2, 2⟩ 1) (.optVal (some 40)) ∧
    κ.Returned 14 (.slFill ⟨1, 3⟩ 9) .unit ∧ (Op.slFill ⟨1, 3⟩ 9 : Op Nat Nat).onSlice = some ⟨1, 3⟩ ∧
    κ.content 0 = some 10 ∧ κ.content 1 = some 9 ∧ κ.content 4 = some 50 :=
  ⟨after [10, 20, 30, 40, 50] 5 8 slices, reach_after slices_possible,
    .sub 2 (returned_of rfl rfl) (.self _), returned_of rfl rfl, returned_of rfl rfl, before_of rfl rfl (by decide),
    returned_of rfl rfl, returned_of rfl rfl, rfl, rfl, rfl, rfl⟩

/-- C30, C31: splitting a vector that has six elements by now. -/
example : ∃ κ : Cfg Nat Nat, Reach (mem [10, 20, 30, 40, 50] 5 8) [10, 20, 30, 40, 50] κ ∧
    κ.Returned 5 (.splitAt 2) (.slc2 ⟨0, 2⟩ ⟨2, 4⟩) ∧ κ.Returned 6 .splitFirst (.elemSlc (some (0, ⟨1, 5⟩))) ∧
    κ.Returned 7 .splitLast (.elemSlc (some (5, ⟨0, 5⟩))) ∧ κ.Returned 8 (.chunks 4) (.slcs [⟨0, 4⟩, ⟨4, 2⟩]) ∧
    κ.Returned 9 (.slChunks ⟨1, 3⟩ 2) (.slcs [⟨1, 2⟩, ⟨3, 1⟩]) ∧ κ.Panicked 11 (.slSplitAt ⟨1, 3⟩ 4) .splitMid ∧
    κ.Panicked 12 (.splitAt 7) .splitMid ∧ κ.Panicked 13 (.chunks 0) .chunkZero :=
  ⟨after [10, 20, 30, 40, 50] 5 8 slices, reach_after slices_possible,
    returned_of rfl rfl, returned_of rfl rfl, returned_of rfl rfl, returned_of rfl rfl, returned_of rfl rfl,
    panicked_of rfl rfl, panicked_of rfl rfl, panicked_of rfl rfl⟩

end examples

end Verif
