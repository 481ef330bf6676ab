import Verif.Proof.Bulk
import Verif.Props.DemoViews
import Verif.Props.Len

/-!
# Operations on all elements: C32, C33, C34, C35, C36

`Holding` (the vector holds `vs` and nobody disturbs the call) and `Viewing` (the same for a slice) are defined in
`Spec/Views.lean`. User closures are functions to `Option`: `none` means that the closure panics.

The properties are stated for calls without concurrent *writers* (`NoWriters`). For slices this is what is proved. For the
vector it is false: a concurrent *reader* of an element whose initialisation has not been noticed by `len()` yet hides this
element and all behind it (theorems `…_reader_negation`). The theorems about the vector therefore assume `Holding`, i.e. in
addition that no overlapping call accesses elements or that the length had been reported before, and have the suffix
`_partial`. The missing case is the one in which they are false.
-/

namespace Verif

variable {α β : Type} {m : Mem α} {l : List α} {n : Nat} {κ : Nat → Cfg α β}

/-! ## C32 -/

/-- **C32.** `vec.map(f)` applies `f` to all elements in order. -/
theorem C32_map_partial (hm : InitMem m l) (h : Exec m l n κ) {c : Cid} {f : α → Option β} {x : Ret α β} {vs : List α}
    (hr : (κ n).Returned c (.map f) x) (hh : (κ n).Holding c vs) :
    ∃ bs, x = .betas bs ∧ vs.map f = bs.map some := by
  obtain ⟨w0, w, d, ⟨len, bs, hl, rfl, ho⟩, h1, h2⟩ := h.holding_all hm hr hh (fun _ h => h) rfl
  exact ⟨bs, rfl, ho.eq (h1 len hl) h2⟩

/-- **C32.** `vec.filter(f)` yields the elements whose value satisfies `f`, in order. -/
theorem C32_filter_partial (hm : InitMem m l) (h : Exec m l n κ) {c : Cid} {f : α → Option Bool} {x : Ret α β} {vs : List α}
    (hr : (κ n).Returned c (.filter f) x) (hh : (κ n).Holding c vs) :
    (∀ v ∈ vs, f v ≠ none) ∧
    x = .elems (((vs.zip (List.range vs.length)).filter fun p => f p.1 == some true).map Prod.snd) := by
  obtain ⟨w0, w, d, ⟨len, ps, hl, rfl, ho⟩, h1, h2⟩ := h.holding_all hm hr hh (fun _ h => h) rfl
  have := h1 len hl
  subst this
  obtain ⟨h3, h4⟩ := ho.eq rfl h2
  exact ⟨h3, by rw [h4, view_range]⟩

/-- **C32.** `vec.fold(init, f)` is the left fold over all elements in order. -/
theorem C32_fold_partial (hm : InitMem m l) (h : Exec m l n κ) {c : Cid} {f : β → α → Option β} {init : β} {x : Ret α β}
    {vs : List α} (hr : (κ n).Returned c (.fold f init) x) (hh : (κ n).Holding c vs) :
    ∃ b, x = .beta b ∧ vs.foldlM f init = some b := by
  obtain ⟨w0, w, d, ⟨len, b, hl, rfl, ho⟩, h1, h2⟩ := h.holding_all hm hr hh (fun _ h => h) rfl
  exact ⟨b, rfl, ho.eq (h1 len hl) h2⟩

/-- **C32.** `vec.reduce(f)` is the left fold starting with the first element; `None` exactly on empty. -/
theorem C32_reduce_partial (hm : InitMem m l) (h : Exec m l n κ) {c : Cid} {f : α → α → Option α} {x : Ret α β}
    {vs : List α} (hr : (κ n).Returned c (.reduce f) x) (hh : (κ n).Holding c vs) :
    ∃ o, x = .optVal o ∧ (vs = [] ∧ o = none ∨ ∃ v vs' b, vs = v :: vs' ∧ vs'.foldlM f v = some b ∧ o = some b) := by
  obtain ⟨w0, w, d, ⟨len, o, hl, rfl, ho⟩, h1, h2⟩ := h.holding_all hm hr hh (fun _ h => h) rfl
  refine ⟨o, rfl, ?_⟩
  have h3 := ho.eq (h1 len hl) h2
  rcases vs with _ | ⟨v, vs⟩
  · simp only [reduceM, Option.some.injEq] at h3; exact .inl ⟨rfl, h3.symm⟩
  · simp only [reduceM, Option.map_eq_some_iff] at h3
    obtain ⟨b, h3, h4⟩ := h3
    exact .inr ⟨v, vs, b, rfl, h3, h4.symm⟩

/-- **C32.** The same for slices. -/
theorem C32_slice_map (hm : InitMem m l) (h : Exec m l n κ) {c : Cid} {s : Slc} {f : α → Option β} {x : Ret α β}
    {vs : List α} (hr : (κ n).Returned c (.slMap s f) x) (hh : (κ n).Viewing c s vs) :
    ∃ bs, x = .betas bs ∧ vs.map f = bs.map some := by
  obtain ⟨w0, w, d, ⟨bs, rfl, ho⟩, h1, h2⟩ := h.viewing_all hm hr hh (fun _ h => h)
  exact ⟨bs, rfl, ho.eq h1 h2⟩

/-- **C32.** `slice.filter(f)`. -/
theorem C32_slice_filter (hm : InitMem m l) (h : Exec m l n κ) {c : Cid} {s : Slc} {f : α → Option Bool} {x : Ret α β}
    {vs : List α} (hr : (κ n).Returned c (.slFilter s f) x) (hh : (κ n).Viewing c s vs) :
    (∀ v ∈ vs, f v ≠ none) ∧ x = .elems (((vs.zip s.view).filter fun p => f p.1 == some true).map Prod.snd) := by
  obtain ⟨w0, w, d, ⟨ps, rfl, ho⟩, h1, h2⟩ := h.viewing_all hm hr hh (fun _ h => h)
  obtain ⟨h3, h4⟩ := ho.eq h1 h2
  exact ⟨h3, by rw [h4]⟩

/-- **C32.** `slice.fold(init, f)`. -/
theorem C32_slice_fold (hm : InitMem m l) (h : Exec m l n κ) {c : Cid} {s : Slc} {f : β → α → Option β} {init : β}
    {x : Ret α β} {vs : List α} (hr : (κ n).Returned c (.slFold s f init) x) (hh : (κ n).Viewing c s vs) :
    ∃ b, x = .beta b ∧ vs.foldlM f init = some b := by
  obtain ⟨w0, w, d, ⟨b, rfl, ho⟩, h1, h2⟩ := h.viewing_all hm hr hh (fun _ h => h)
  exact ⟨b, rfl, ho.eq h1 h2⟩

/-- **C32.** `slice.reduce(f)`. -/
theorem C32_slice_reduce (hm : InitMem m l) (h : Exec m l n κ) {c : Cid} {s : Slc} {f : α → α → Option α} {x : Ret α β}
    {vs : List α} (hr : (κ n).Returned c (.slReduce s f) x) (hh : (κ n).Viewing c s vs) :
    ∃ o, x = .optVal o ∧ (vs = [] ∧ o = none ∨ ∃ v vs' b, vs = v :: vs' ∧ vs'.foldlM f v = some b ∧ o = some b) := by
  obtain ⟨w0, w, d, ⟨o, rfl, ho⟩, h1, h2⟩ := h.viewing_all hm hr hh (fun _ h => h)
  refine ⟨o, rfl, ?_⟩
  have h3 := ho.eq h1 h2
  rcases vs with _ | ⟨v, vs⟩
  · simp only [reduceM, Option.some.injEq] at h3; exact .inl ⟨rfl, h3.symm⟩
  · simp only [reduceM, Option.map_eq_some_iff] at h3
    obtain ⟨b, h3, h4⟩ := h3
    exact .inr ⟨v, vs, b, rfl, h3, h4.symm⟩

/-! ## C33 -/

/-- **C33.** `vec.index_of(t)` is the least index whose element equals `t`; `None` iff there is none. -/
theorem C33_index_of_partial (hm : InitMem m l) (h : Exec m l n κ) {c : Cid} {veq : α → α → Bool} {t : α} {x : Ret α β}
    {vs : List α} (hr : (κ n).Returned c (.indexOf veq t) x) (hh : (κ n).Holding c vs) :
    x = .optNat (vs.findIdx? fun v => veq v t) := by
  obtain ⟨w0, w, d, ⟨len, o, hl, rfl, ho⟩, h1, h2⟩ := h.holding_all hm hr hh (fun _ h => h) rfl
  rw [ho.eq (h1 len hl) h2]

/-- **C33.** `vec.contains(t)` iff some element equals `t`. -/
theorem C33_contains_partial (hm : InitMem m l) (h : Exec m l n κ) {c : Cid} {veq : α → α → Bool} {t : α} {x : Ret α β}
    {vs : List α} (hr : (κ n).Returned c (.contains veq t) x) (hh : (κ n).Holding c vs) :
    x = .bool (vs.any fun v => veq v t) := by
  obtain ⟨w0, w, d, ⟨len, o, hl, rfl, ho⟩, h1, h2⟩ := h.holding_all hm hr hh (fun _ h => h) rfl
  rw [ho.eq (h1 len hl) h2, List.findIdx?_isSome]

/-- **C33.** `slice.index_of(t)`: the index within the slice. -/
theorem C33_slice_index_of (hm : InitMem m l) (h : Exec m l n κ) {c : Cid} {s : Slc} {veq : α → α → Bool} {t : α}
    {x : Ret α β} {vs : List α} (hr : (κ n).Returned c (.slIndexOf s veq t) x) (hh : (κ n).Viewing c s vs) :
    x = .optNat (vs.findIdx? fun v => veq v t) := by
  obtain ⟨w0, w, d, ⟨o, rfl, ho⟩, h1, h2⟩ := h.viewing_all hm hr hh (fun _ h => h)
  rw [ho.eq h1 h2]

/-- **C33.** `slice.contains(t)`. -/
theorem C33_slice_contains (hm : InitMem m l) (h : Exec m l n κ) {c : Cid} {s : Slc} {veq : α → α → Bool} {t : α}
    {x : Ret α β} {vs : List α} (hr : (κ n).Returned c (.slContains s veq t) x) (hh : (κ n).Viewing c s vs) :
    x = .bool (vs.any fun v => veq v t) := by
  obtain ⟨w0, w, d, ⟨o, rfl, ho⟩, h1, h2⟩ := h.viewing_all hm hr hh (fun _ h => h)
  rw [ho.eq h1 h2, List.findIdx?_isSome]

/-- **C33.** The index found is the least one: the element there equals `t` and no earlier one does. -/
theorem C33_least {veq : α → α → Bool} {t : α} {vs : List α} {i : Nat} :
    (vs.findIdx? fun v => veq v t) = some i ↔
      (∃ v, vs[i]? = some v ∧ veq v t = true) ∧ ∀ j v, j < i → vs[j]? = some v → veq v t = false := by
  rw [List.findIdx?_eq_some_iff_getElem]
  constructor
  · rintro ⟨h1, h2, h3⟩
    refine ⟨⟨vs[i], List.getElem?_eq_getElem h1, h2⟩, fun j v hj hv => ?_⟩
    obtain ⟨h4, rfl⟩ := List.getElem?_eq_some_iff.1 hv
    simpa using h3 j hj
  · rintro ⟨⟨v, h1, h2⟩, h3⟩
    obtain ⟨h4, rfl⟩ := List.getElem?_eq_some_iff.1 h1
    refine ⟨h4, h2, fun j hj => ?_⟩
    simpa using h3 j _ hj (List.getElem?_eq_getElem (by omega))

/-! ## C34 -/

/-- **C34.** Without concurrent writers `fill(v)` sets all elements to `v`, `fill_with(f)` sets element `i` to `f(i)`;
nothing else changes. -/
theorem C34_fill_partial (hm : InitMem m l) (h : Exec m l n κ) {c : Cid} {op : Op α β} {g : Nat → Option α} {x : Ret α β}
    {vs : List α} {m0 m1 : Mem α} (hop : op.Fills g) (hr : (κ n).Returned c op x) (hh : (κ n).Holding c vs)
    (h0 : (κ n).AtStart c m0) (h1 : (κ n).AtEnd c m1) :
    (∀ i, i < vs.length → ∃ v, g i = some v ∧ m1.content i = some v) ∧
    ∀ i, vs.length ≤ i → m1.content i = m0.content i := by
  obtain ⟨ct, st, et, fin, hc⟩ := hr
  obtain ⟨d, hi⟩ := (h.inv hm (Nat.le_refl n)).returned hc
  obtain ⟨hsz, len, ps, hl, rfl, -, hlen, rfl, hps⟩ := hop.out hi.out
  have he : (Status.done .unit et fin : Status α β).ended = some (et, fin) := rfl
  have hlv : len = vs.length := h.holding_len hm hh hc he hsz hl
  obtain ⟨r0, hr0, rfl⟩ := h0
  obtain ⟨r1, t1, w1, hr1, hw1, rfl⟩ := h1
  rw [hc] at hr0 hr1
  simp only [Option.some.injEq] at hr0 hr1
  subst hr0 hr1
  simp only [Status.ended, Option.some.injEq, Prod.mk.injEq] at hw1
  obtain ⟨rfl, rfl⟩ := hw1
  have hall := fun i => h.writes_all hm hc he hi.data (i := i)
    (fun d' op' h1 h2 h3 => (hh.quiet d' op' h1 h2 h3).2 i)
  constructor
  · intro i hi'
    obtain ⟨p, hp⟩ : ∃ p, ps[i]? = some p := ⟨ps[i]'(by omega), List.getElem?_eq_getElem _⟩
    exact ⟨p.2, hps i p hp, (hall i).1 i p (by omega) hp⟩
  · intro i hi'
    rcases hv : st.mem.content i with _ | v
    · obtain ⟨e1, e2, e3, e4, e5⟩ := h.ends hm hc he
      rw [e4]
      refine h.window_none hm hc (s := ct) (Nat.le_refl _) (Nat.le_of_lt e1) e5 (by omega) ?_ ?_
      · show (κ ct).w.mem.content i = none
        rw [← show st = (κ ct).w from e3]; exact hv
      · intro d' op' h1 h2
        by_cases hdc : d' = c
        · subst hdc
          rw [← Cfg.Called.unique h1 ⟨ct, st, _, hc⟩]; exact hsz
        · exact (hh.quiet d' op' hdc h2 h1).1
    · exact (hall i).2 (by omega) v hv

/-- **C34.** Whatever happens concurrently: the call writes exactly to the positions below a length it observed; they were
all initialised before its first write; it gives each of them its value. -/
theorem C34_only (hm : InitMem m l) (h : Exec m l n κ) {c : Cid} {op : Op α β} {g : Nat → Option α} {x : Ret α β}
    (hop : op.Fills g) (hr : (κ n).Returned c op x) :
    ∃ len, (κ n).Observes c len ∧
      (∀ t, t < n → (κ t).Moves c (κ (t + 1)) → ∀ i, (κ t).content i ≠ (κ (t + 1)).content i →
        i < len ∧ (κ (t + 1)).content i = g i ∧ ∀ j, j < len → ((κ t).content j).isSome) ∧
      ∀ i, i < len → ∃ t v, t < n ∧ (κ n).During c t ∧ (κ t).Moves c (κ (t + 1)) ∧ g i = some v ∧
        (κ (t + 1)).content i = some v := by
  obtain ⟨ct, st, et, fin, hc⟩ := hr
  obtain ⟨d, hi⟩ := (h.inv hm (Nat.le_refl n)).returned hc
  obtain ⟨hsz, len, ps, hl, rfl, hea, hlen, rfl, hps⟩ := hop.out hi.out
  have he : (Status.done .unit et fin : Status α β).ended = some (et, fin) := rfl
  obtain ⟨f1, f2⟩ := h.fill_all hm hi.data
  refine ⟨len, h.observes hm hc he hsz hl, fun t ht hmv i hne => ?_, fun i hi' => ?_⟩
  · obtain ⟨j, p, rfl, hp, hv⟩ := f1 t ht hmv i hne
    have hj := (List.getElem?_eq_some_iff.1 hp).1
    refine ⟨by omega, ?_, ?_⟩
    · rw [hv, Nat.zero_add, hps j p hp]
    · obtain ⟨e, d1, d2, k1, k2, k3, k4, k5, k6, k7, k8⟩ := h.change hm ht hne
      have hcid : e.cid = c := by
        obtain ⟨e', d1', d2', q1, q2, q3, q4, -⟩ := h.change_mine hm ht hmv hne
        obtain ⟨r, hr, ⟨a, again, k, w', b, z1, z2, z3⟩ | ⟨x, z1, z3⟩ | ⟨x, z1, z3⟩⟩ := hmv
        · unfold Happens at k1
          rw [z3] at k1
          simp only [exec_trace z2] at k1
          exact events_cid (by rw [List.append_cancel_left k1]; simp)
        · rw [z3] at hne; exact absurd rfl hne
        · rw [z3] at hne; exact absurd rfl hne
      subst hcid
      obtain ⟨⟨t0, ⟨r', hr', rfl⟩, h7⟩, -⟩ := k2
      rw [hc] at hr'
      simp only [Option.some.injEq] at hr'
      subst hr'
      exact h.early hm hc he hea ht h7 k1 k5 rfl
  · obtain ⟨p, hp⟩ : ∃ p, ps[i]? = some p := ⟨ps[i]'(by omega), List.getElem?_eq_getElem _⟩
    obtain ⟨t, h1, h2, h3, h4⟩ := f2 i p hp
    exact ⟨t, p.2, h1, h2, h3, hps i p hp, by rwa [Nat.zero_add] at h4⟩

/-- **C34.** Filling a slice: its `i`-th position gets the `i`-th value, unless some overlapping call writes there, too. -/
theorem C34_slice_fill (hm : InitMem m l) (h : Exec m l n κ) {c : Cid} {op : Op α β} {s : Slc} {g : Nat → Option α}
    {x : Ret α β} {m1 : Mem α} (hop : op.SliceFills s g) (hr : (κ n).Returned c op x) (h1 : (κ n).AtEnd c m1) {i p : Nat}
    (hp : s.view[i]? = some p)
    (hq : ∀ d op', d ≠ c → (κ n).Overlap c d → (κ n).Called d op' → ¬ op'.MayWrite p) :
    ∃ v, g i = some v ∧ m1.content p = some v := by
  obtain ⟨ct, st, et, fin, hc⟩ := hr
  obtain ⟨d, hi⟩ := (h.inv hm (Nat.le_refl n)).returned hc
  obtain ⟨ps, rfl, hlen, rfl, hps⟩ := hop.out hi.out
  have he : (Status.done .unit et fin : Status α β).ended = some (et, fin) := rfl
  obtain ⟨r1, t1, w1, hr1, hw1, rfl⟩ := h1
  rw [hc] at hr1
  simp only [Option.some.injEq] at hr1
  subst hr1
  simp only [Status.ended, Option.some.injEq, Prod.mk.injEq] at hw1
  obtain ⟨rfl, rfl⟩ := hw1
  obtain ⟨hlt, rfl⟩ : i < s.len ∧ s.a + i = p := by
    simp only [Slc.view, List.getElem?_map, Option.map_eq_some_iff] at hp
    obtain ⟨k, h1, h2⟩ := hp
    rw [List.getElem?_eq_some_iff] at h1
    obtain ⟨h3, h4⟩ := h1
    simp at h3 h4
    omega
  obtain ⟨q, hq'⟩ : ∃ q, ps[i]? = some q := ⟨ps[i]'(by omega), List.getElem?_eq_getElem _⟩
  exact ⟨q.2, hps i q hq', (h.writes_all hm hc he hi.data hq).1 i q rfl hq'⟩

/-- **C34.** Filling a slice writes exactly to the positions of the slice. -/
theorem C34_slice_only (hm : InitMem m l) (h : Exec m l n κ) {c : Cid} {op : Op α β} {s : Slc} {g : Nat → Option α}
    {x : Ret α β} (hop : op.SliceFills s g) (hr : (κ n).Returned c op x) :
    (∀ t, t < n → (κ t).Moves c (κ (t + 1)) → ∀ p, (κ t).content p ≠ (κ (t + 1)).content p →
      ∃ i, s.view[i]? = some p ∧ (κ (t + 1)).content p = g i) ∧
    ∀ i p, s.view[i]? = some p → ∃ t v, t < n ∧ (κ n).During c t ∧ (κ t).Moves c (κ (t + 1)) ∧ g i = some v ∧
      (κ (t + 1)).content p = some v := by
  obtain ⟨ct, st, et, fin, hc⟩ := hr
  obtain ⟨d, hi⟩ := (h.inv hm (Nat.le_refl n)).returned hc
  obtain ⟨ps, rfl, hlen, rfl, hps⟩ := hop.out hi.out
  obtain ⟨f1, f2⟩ := h.fill_all hm hi.data
  constructor
  · intro t ht hmv p hne
    obtain ⟨j, q, rfl, hq, hv⟩ := f1 t ht hmv p hne
    have hj := (List.getElem?_eq_some_iff.1 hq).1
    refine ⟨j, ?_, by rw [hv, hps j q hq]⟩
    simp [Slc.view, show j < s.len by omega]
  · intro i p hp
    obtain ⟨hlt, rfl⟩ : i < s.len ∧ s.a + i = p := by
      simp only [Slc.view, List.getElem?_map, Option.map_eq_some_iff] at hp
      obtain ⟨k, h1, h2⟩ := hp
      rw [List.getElem?_eq_some_iff] at h1
      obtain ⟨h3, h4⟩ := h1
      simp at h3 h4
      omega
    obtain ⟨q, hq⟩ : ∃ q, ps[i]? = some q := ⟨ps[i]'(by omega), List.getElem?_eq_getElem _⟩
    obtain ⟨t, h1, h2, h3, h4⟩ := f2 i q hq
    exact ⟨t, q.2, h1, h2, h3, hps i q hq, h4⟩

/-! ## C35 -/

/-- **C35.** `vec == list` iff the lengths are equal and all elements are equal. -/
theorem C35_eq_partial (hm : InitMem m l) (h : Exec m l n κ) {c : Cid} {veq : α → α → Option Bool} {ts : List α} {x : Ret α β}
    {vs : List α} (hr : (κ n).Returned c (.eqList veq ts) x) (hh : (κ n).Holding c vs) :
    ∃ b, x = .bool b ∧
      (b = true ↔ vs.length = ts.length ∧ ∀ (i : Nat) u v, vs[i]? = some u → ts[i]? = some v → veq u v = some true) := by
  obtain ⟨w0, w, d, ⟨len, b, hl, rfl, ho⟩, h1, h2⟩ := h.holding_all hm hr hh (fun _ h => h) rfl
  exact ⟨b, rfl, ho.eq (h1 len hl) h2⟩

/-- **C35.** `slice == list`. -/
theorem C35_slice_eq (hm : InitMem m l) (h : Exec m l n κ) {c : Cid} {s : Slc} {veq : α → α → Option Bool} {ts : List α}
    {x : Ret α β} {vs : List α} (hr : (κ n).Returned c (.slEqList s veq ts) x) (hh : (κ n).Viewing c s vs) :
    ∃ b, x = .bool b ∧
      (b = true ↔ vs.length = ts.length ∧ ∀ (i : Nat) u v, vs[i]? = some u → ts[i]? = some v → veq u v = some true) := by
  obtain ⟨w0, w, d, ⟨b, rfl, ho⟩, h1, h2⟩ := h.viewing_all hm hr hh (fun _ h => h)
  exact ⟨b, rfl, ho.eq h1 h2⟩

/-! ## C36 -/

/-- **C36.** `vec.clone_to_vec()` and `vec.iter_cloned()` yield exactly the content. -/
theorem C36_exact_partial (hm : InitMem m l) (h : Exec m l n κ) {c : Cid} {op : Op α β} {x : Ret α β} {vs : List α}
    (hop : op = .cloneToVec ∨ op = .iterCloned) (hr : (κ n).Returned c op x) (hh : (κ n).Holding c vs) :
    x = .vals vs := by
  rcases hop with rfl | rfl
  · obtain ⟨w0, w, d, ⟨len, xs, hl, rfl, h3, h4⟩, h1, h2⟩ := h.holding_all hm hr hh (fun _ h => h) rfl
    rw [Sees.all h2 h4 (h3.trans (h1 len hl))]
  · obtain ⟨w0, w, d, ⟨len, xs, hl, rfl, h3, h4⟩, h1, h2⟩ := h.holding_all hm hr hh (fun _ h => h) rfl
    rw [Sees.all h2 h4 (h3.trans (h1 len hl))]

/-- **C36.** `slice.clone_to_vec()` / `slice.iter_cloned()`. -/
theorem C36_slice_exact (hm : InitMem m l) (h : Exec m l n κ) {c : Cid} {s : Slc} {x : Ret α β} {vs : List α}
    (hr : (κ n).Returned c (.slIterCloned s) x) (hh : (κ n).Viewing c s vs) : x = .vals vs := by
  obtain ⟨w0, w, d, ⟨xs, rfl, h3, h4⟩, h1, h2⟩ := h.viewing_all hm hr hh (fun _ h => h)
  rw [Sees.all h2 h4 (h3.trans h1)]

/-- **C36.** Whatever happens concurrently, the copy has an element for every position below an observed length, and each
value was the content of its position at some moment of the call. -/
theorem C36_genuine (hm : InitMem m l) (h : Exec m l n κ) {c : Cid} {op : Op α β} {x : Ret α β}
    (hop : op = .cloneToVec ∨ op = .iterCloned) (hr : (κ n).Returned c op x) :
    ∃ xs, x = .vals xs ∧ (κ n).Observes c xs.length ∧
      ∀ (i : Nat) v, xs[i]? = some v → ∃ t, (κ n).During c t ∧ (κ t).content i = some v := by
  obtain ⟨ct, st, et, fin, hc⟩ := hr
  obtain ⟨d, hi⟩ := (h.inv hm (Nat.le_refl n)).returned hc
  have ho : ∃ len vs, LenOK c st len fin ∧ x = .vals vs ∧ vs.length = len ∧ d = reads c 0 vs := by
    rcases hop with rfl | rfl <;> exact hi.out
  have hsz : op.size = none := by rcases hop with rfl | rfl <;> rfl
  obtain ⟨len, xs, hl, rfl, rfl, hd⟩ := ho
  refine ⟨xs, rfl, h.observes hm hc rfl hsz hl, fun i v hv => ?_⟩
  obtain ⟨t, h1, h2, h3⟩ := h.read_genuine hm (hi.data.trans hd) hv
  exact ⟨t, h2, by rwa [Nat.zero_add] at h3⟩

/-- **C36.** The same for slices. -/
theorem C36_slice_genuine (hm : InitMem m l) (h : Exec m l n κ) {c : Cid} {s : Slc} {x : Ret α β}
    (hr : (κ n).Returned c (.slIterCloned s) x) :
    ∃ xs, x = .vals xs ∧ xs.length = s.view.length ∧
      ∀ (i : Nat) v, xs[i]? = some v → ∃ p t, s.view[i]? = some p ∧ (κ n).During c t ∧ (κ t).content p = some v := by
  obtain ⟨ct, st, et, fin, hc⟩ := hr
  obtain ⟨d, hi⟩ := (h.inv hm (Nat.le_refl n)).returned hc
  obtain ⟨xs, rfl, h1, hd⟩ := hi.out
  refine ⟨xs, rfl, by simp [Slc.view, h1], fun i v hv => ?_⟩
  obtain ⟨t, -, h2, h3⟩ := h.read_genuine hm (hi.data.trans hd) hv
  have hlt : i < s.len := by rw [← h1]; exact (List.getElem?_eq_some_iff.1 hv).1
  exact ⟨s.a + i, t, by simp [Slc.view, hlt], h2, h3⟩

/-! ## A concurrent reader -/

section negations
open Demo

/-- `push(20)` has returned. Call 2 (`get_cloned(1)`) is reading the element while call 3 runs. -/
def Demo.reader (op : Op Nat Nat) (k : Nat) : List (Choice Nat Nat) :=
  [.call (.push 20)] ++ go 1 6 ++ [.call (.getCloned 1)] ++ go 2 4 ++ [.call op] ++ go 3 k ++ go 2 3

theorem Demo.reader_quiet {op : Op Nat Nat} {k : Nat} {m0 : Mem Nat} (hp : Possible [10] 4 8 (reader op k))
    (h1 : (after [10] 4 8 (reader op k)).AtStart 3 m0) (hv : m0.Leading [10, 20])
    (ho : others (after [10] 4 8 (reader op k)) 3 = [.getCloned 1]) :
    (after [10] 4 8 (reader op k)).NoWriters 3 [10, 20] := by
  refine ⟨⟨m0, h1, hv⟩, fun d op' h2 h3 h4 => ?_⟩
  have := mem_others (by decide) (by decide) (reach_after hp) h2 h3 h4
  rw [ho, List.mem_singleton] at this
  subst this
  exact ⟨rfl, fun _ h => h⟩

/-- **C32, negation.** The vector holds 10 and 20 and nobody writes, but `map` yields one value only. -/
theorem C32_reader_negation : ∃ κ : Cfg Nat Nat, Reach (mem [10] 4 8) [10] κ ∧ κ.Returned 1 (.push 20) (.nat 1) ∧
    κ.Before 1 3 ∧ κ.NoWriters 3 [10, 20] ∧ κ.Returned 3 (.map some) (.betas [10]) :=
  have hp : Possible [10] 4 8 (reader (.map some) 9) := by unfold Possible; rfl
  ⟨after [10] 4 8 (reader (.map some) 9), reach_after hp, returned_of rfl rfl, before_of rfl rfl (by decide),
    reader_quiet hp ⟨_, rfl, rfl⟩ (leading_of rfl rfl) rfl, returned_of rfl rfl⟩

/-- **C33, negation.** `contains(20)` is false although `push(20)` has returned and nobody writes. -/
theorem C33_reader_negation : ∃ κ : Cfg Nat Nat, Reach (mem [10] 4 8) [10] κ ∧ κ.Returned 1 (.push 20) (.nat 1) ∧
    κ.Before 1 3 ∧ κ.NoWriters 3 [10, 20] ∧ κ.Returned 3 (.contains (· == ·) 20) (.bool false) :=
  have hp : Possible [10] 4 8 (reader (.contains (· == ·) 20) 9) := by unfold Possible; rfl
  ⟨after [10] 4 8 (reader (.contains (· == ·) 20) 9), reach_after hp, returned_of rfl rfl, before_of rfl rfl (by decide),
    reader_quiet hp ⟨_, rfl, rfl⟩ (leading_of rfl rfl) rfl, returned_of rfl rfl⟩

/-- **C34, negation.** `fill(7)` leaves out the second element although nobody else writes. -/
theorem C34_reader_negation : ∃ κ : Cfg Nat Nat, Reach (mem [10] 4 8) [10] κ ∧ κ.Returned 1 (.push 20) (.nat 1) ∧
    κ.Before 1 3 ∧ κ.NoWriters 3 [10, 20] ∧ κ.Returned 3 (.fill 7) .unit ∧ κ.Idle ∧
    κ.content 0 = some 7 ∧ κ.content 1 = some 20 :=
  have hp : Possible [10] 4 8 (reader (.fill 7) 9) := by unfold Possible; rfl
  ⟨after [10] 4 8 (reader (.fill 7) 9), reach_after hp, returned_of rfl rfl, before_of rfl rfl (by decide),
    reader_quiet hp ⟨_, rfl, rfl⟩ (leading_of rfl rfl) rfl, returned_of rfl rfl,
    idle_of (by decide) (by decide) (reach_after hp) rfl, rfl, rfl⟩

/-- **C35, negation.** The vector holds 10 and 20, nobody writes, and the vector is equal to `[10]`. -/
theorem C35_reader_negation : ∃ κ : Cfg Nat Nat, Reach (mem [10] 4 8) [10] κ ∧ κ.Returned 1 (.push 20) (.nat 1) ∧
    κ.Before 1 3 ∧ κ.NoWriters 3 [10, 20] ∧ κ.Returned 3 (.eqList (fun u v => some (u == v)) [10]) (.bool true) :=
  have hp : Possible [10] 4 8 (reader (.eqList (fun u v => some (u == v)) [10]) 9) := by unfold Possible; rfl
  ⟨after [10] 4 8 (reader (.eqList (fun u v => some (u == v)) [10]) 9), reach_after hp, returned_of rfl rfl, before_of rfl rfl (by decide),
    reader_quiet hp ⟨_, rfl, rfl⟩ (leading_of rfl rfl) rfl, returned_of rfl rfl⟩

/-- **C36, negation.** The copy misses the second element although nobody writes. -/
theorem C36_reader_negation : ∃ κ : Cfg Nat Nat, Reach (mem [10] 4 8) [10] κ ∧ κ.Returned 1 (.push 20) (.nat 1) ∧
    κ.Before 1 3 ∧ κ.NoWriters 3 [10, 20] ∧ κ.Returned 3 .iterCloned (.vals [10]) :=
  have hp : Possible [10] 4 8 (reader .iterCloned 9) := by unfold Possible; rfl
  ⟨after [10] 4 8 (reader .iterCloned 9), reach_after hp, returned_of rfl rfl, before_of rfl rfl (by decide),
    reader_quiet hp ⟨_, rfl, rfl⟩ (leading_of rfl rfl) rfl, returned_of rfl rfl⟩

/-! ## Copies are not snapshots -/

/-- Call 2 copies `[10, 20]`; after it has read the first element, call 3 sets it to 11, then call 4 sets the second
element to 21. -/
def Demo.torn : List (Choice Nat Nat) :=
  [.call .iter] ++ go 1 5 ++ [.call .cloneToVec] ++ go 2 11 ++ [.call (.elSet 0 11)] ++ go 3 4 ++
  [.call (.elSet 1 21)] ++ go 4 4 ++ go 2 4

/-- **C36.** The copy as a whole need not be a snapshot: `[10, 21]` is not the content of the vector at any moment. -/
theorem C36_no_snapshot : ∃ (n : Nat) (κ : Nat → Cfg Nat Nat), Exec (mem [10, 20] 2 8) [10, 20] n κ ∧
    (κ n).Returned 2 .cloneToVec (.vals [10, 21]) ∧ ∀ t, t ≤ n → ¬ (κ t).w.mem.Leading [10, 21] := by
  have hp : Possible [10, 20] 2 8 torn := by unfold Possible; rfl
  refine ⟨_, _, exec_after hp, returned_of rfl rfl, fun t ht hl => ?_⟩
  have h0 := hl.1 0 (by decide)
  have h1 := hl.1 1 (by decide)
  have key : (List.range (torn.length + 1)).all (fun t =>
      !(((after [10, 20] 2 8 (torn.take t)).content 0 == some 10) &&
        ((after [10, 20] 2 8 (torn.take t)).content 1 == some 21))) = true := by rfl
  rw [List.all_eq_true] at key
  have := key t (List.mem_range.2 (by omega))
  simp only [Cfg.content] at this
  rw [h0, h1] at this
  simp at this

end negations

/-! ## Examples: the hypotheses are met -/

section examples
open Demo

/-- One call on `[10, 20, 30]` with nobody else around. -/
def Demo.one (op : Op Nat Nat) (k : Nat) : List (Choice Nat Nat) := [.call op] ++ go 1 k

/-- C32: `map`, `filter`, `fold`, `reduce` of `[10, 20, 30]`. -/
example : ∃ κ : Cfg Nat Nat, Reach (mem [10, 20, 30] 3 8) [10, 20, 30] κ ∧ κ.Holding 1 [10, 20, 30] ∧
    κ.Returned 1 (.map fun x => some (x + 1)) (.betas [11, 21, 31]) :=
  have hp : Possible [10, 20, 30] 3 8 (one (.map fun x => some (x + 1)) 14) := by unfold Possible; rfl
  ⟨_, reach_after hp, holding_alone (by decide) (by decide) (reach_after hp) ⟨_, rfl, rfl⟩ (leading_of rfl rfl) rfl,
    returned_of rfl rfl⟩

example : ∃ κ : Cfg Nat Nat, Reach (mem [10, 20, 30] 3 8) [10, 20, 30] κ ∧ κ.Holding 1 [10, 20, 30] ∧
    κ.Returned 1 (.filter fun x => some (decide (15 < x))) (.elems [1, 2]) :=
  have hp : Possible [10, 20, 30] 3 8 (one (.filter fun x => some (decide (15 < x))) 14) := by unfold Possible; rfl
  ⟨_, reach_after hp, holding_alone (by decide) (by decide) (reach_after hp) ⟨_, rfl, rfl⟩ (leading_of rfl rfl) rfl,
    returned_of rfl rfl⟩

example : ∃ κ : Cfg Nat Nat, Reach (mem [10, 20, 30] 3 8) [10, 20, 30] κ ∧ κ.Holding 1 [10, 20, 30] ∧
    κ.Returned 1 (.fold (fun b x => some (2 * b + x)) 1) (.beta 118) :=
  have hp : Possible [10, 20, 30] 3 8 (one (.fold (fun b x => some (2 * b + x)) 1) 14) := by unfold Possible; rfl
  ⟨_, reach_after hp, holding_alone (by decide) (by decide) (reach_after hp) ⟨_, rfl, rfl⟩ (leading_of rfl rfl) rfl,
    returned_of rfl rfl⟩

example : ∃ κ : Cfg Nat Nat, Reach (mem [10, 20, 30] 3 8) [10, 20, 30] κ ∧ κ.Holding 1 [10, 20, 30] ∧
    κ.Returned 1 (.reduce fun a b => some (2 * a + b)) (.optVal (some 110)) :=
  have hp : Possible [10, 20, 30] 3 8 (one (.reduce fun a b => some (2 * a + b)) 18) := by unfold Possible; rfl
  ⟨_, reach_after hp, holding_alone (by decide) (by decide) (reach_after hp) ⟨_, rfl, rfl⟩ (leading_of rfl rfl) rfl,
    returned_of rfl rfl⟩

/-- C33: the second of two equal elements is not reported. -/
example : ∃ κ : Cfg Nat Nat, Reach (mem [10, 20, 20] 3 8) [10, 20, 20] κ ∧ κ.Holding 1 [10, 20, 20] ∧
    κ.Returned 1 (.indexOf (· == ·) 20) (.optNat (some 1)) :=
  have hp : Possible [10, 20, 20] 3 8 (one (.indexOf (· == ·) 20) 11) := by unfold Possible; rfl
  ⟨_, reach_after hp, holding_alone (by decide) (by decide) (reach_after hp) ⟨_, rfl, rfl⟩ (leading_of rfl rfl) rfl,
    returned_of rfl rfl⟩

/-- C34: `fill_with` on `[10, 20, 30]`; and C34 for a slice of it. -/
example : ∃ κ : Cfg Nat Nat, Reach (mem [10, 20, 30] 3 8) [10, 20, 30] κ ∧ κ.Holding 1 [10, 20, 30] ∧
    κ.Returned 1 (.fillWith fun i => some (i * i)) .unit ∧
    (Op.fillWith fun i => some (i * i) : Op Nat Nat).Fills (fun i => some (i * i)) ∧
    κ.content 0 = some 0 ∧ κ.content 2 = some 4 :=
  have hp : Possible [10, 20, 30] 3 8 (one (.fillWith fun i => some (i * i)) 14) := by unfold Possible; rfl
  ⟨_, reach_after hp, holding_alone (by decide) (by decide) (reach_after hp) ⟨_, rfl, rfl⟩ (leading_of rfl rfl) rfl,
    returned_of rfl rfl, fun _ => rfl, rfl, rfl⟩

/-- C35: equal and unequal. -/
example : ∃ κ : Cfg Nat Nat, Reach (mem [10, 20, 30] 3 8) [10, 20, 30] κ ∧ κ.Holding 1 [10, 20, 30] ∧
    κ.Returned 1 (.eqList (fun u v => some (u == v)) [10, 20]) (.bool false) :=
  have hp : Possible [10, 20, 30] 3 8 (one (.eqList (fun u v => some (u == v)) [10, 20]) 11) := by unfold Possible; rfl
  ⟨_, reach_after hp, holding_alone (by decide) (by decide) (reach_after hp) ⟨_, rfl, rfl⟩ (leading_of rfl rfl) rfl,
    returned_of rfl rfl⟩

/-- C36: a copy. -/
example : ∃ κ : Cfg Nat Nat, Reach (mem [10, 20, 30] 3 8) [10, 20, 30] κ ∧ κ.Holding 1 [10, 20, 30] ∧
    κ.Returned 1 .cloneToVec (.vals [10, 20, 30]) :=
  have hp : Possible [10, 20, 30] 3 8 (one .cloneToVec 18) := by unfold Possible; rfl
  ⟨_, reach_after hp, holding_alone (by decide) (by decide) (reach_after hp) ⟨_, rfl, rfl⟩ (leading_of rfl rfl) rfl,
    returned_of rfl rfl⟩

/-- Slices: call 1 takes the slice `1..`, call 2 works on it. -/
def Demo.sliced (op : Op Nat Nat) : List (Choice Nat Nat) :=
  [.call (.slice ⟨.incl 1, .unb⟩)] ++ go 1 5 ++ [.call op] ++ go 2 7

theorem Demo.sliced_viewing {op : Op Nat Nat} {m0 : Mem Nat} (hp : Possible [10, 20, 30] 3 8 (sliced op))
    (h1 : (after [10, 20, 30] 3 8 (sliced op)).AtStart 2 m0) (hv : m0.content 1 = some 20) (hv' : m0.content 2 = some 30)
    (ho : others (after [10, 20, 30] 3 8 (sliced op)) 2 = []) :
    (after [10, 20, 30] 3 8 (sliced op)).Viewing 2 ⟨1, 2⟩ [20, 30] := by
  refine ⟨rfl, ⟨m0, h1, fun j hj => ?_⟩, fun d op' j h2 h3 h4 => ?_⟩
  · have hj' : j < 2 := hj
    obtain rfl | rfl : j = 0 ∨ j = 1 := by omega
    · exact hv
    · exact hv'
  · have := mem_others (by decide) (by decide) (reach_after hp) h2 h3 h4
    rw [ho] at this; simp at this

/-- C32, C33, C35, C36 for slices: the hypotheses of the slice theorems, for all the operations. -/
example : ∃ κ : Cfg Nat Nat, Reach (mem [10, 20, 30] 3 8) [10, 20, 30] κ ∧ κ.Viewing 2 ⟨1, 2⟩ [20, 30] ∧
    κ.Returned 2 (.slMap ⟨1, 2⟩ fun x => some (x + 1)) (.betas [21, 31]) :=
  have hp : Possible [10, 20, 30] 3 8 (sliced (.slMap ⟨1, 2⟩ fun x => some (x + 1))) := by unfold Possible; rfl
  ⟨_, reach_after hp, sliced_viewing hp ⟨_, rfl, rfl⟩ rfl rfl rfl, returned_of rfl rfl⟩

example : ∃ κ : Cfg Nat Nat, Reach (mem [10, 20, 30] 3 8) [10, 20, 30] κ ∧ κ.Viewing 2 ⟨1, 2⟩ [20, 30] ∧
    κ.Returned 2 (.slFilter ⟨1, 2⟩ fun x => some (decide (25 < x))) (.elems [2]) :=
  have hp : Possible [10, 20, 30] 3 8 (sliced (.slFilter ⟨1, 2⟩ fun x => some (decide (25 < x)))) := by unfold Possible; rfl
  ⟨_, reach_after hp, sliced_viewing hp ⟨_, rfl, rfl⟩ rfl rfl rfl, returned_of rfl rfl⟩

example : ∃ κ : Cfg Nat Nat, Reach (mem [10, 20, 30] 3 8) [10, 20, 30] κ ∧ κ.Viewing 2 ⟨1, 2⟩ [20, 30] ∧
    κ.Returned 2 (.slIndexOf ⟨1, 2⟩ (· == ·) 30) (.optNat (some 1)) :=
  have hp : Possible [10, 20, 30] 3 8 (sliced (.slIndexOf ⟨1, 2⟩ (· == ·) 30)) := by unfold Possible; rfl
  ⟨_, reach_after hp, sliced_viewing hp ⟨_, rfl, rfl⟩ rfl rfl rfl, returned_of rfl rfl⟩

example : ∃ κ : Cfg Nat Nat, Reach (mem [10, 20, 30] 3 8) [10, 20, 30] κ ∧ κ.Viewing 2 ⟨1, 2⟩ [20, 30] ∧
    κ.Returned 2 (.slEqList ⟨1, 2⟩ (fun u v => some (u == v)) [20, 31]) (.bool false) :=
  have hp : Possible [10, 20, 30] 3 8 (sliced (.slEqList ⟨1, 2⟩ (fun u v => some (u == v)) [20, 31])) := by unfold Possible; rfl
  ⟨_, reach_after hp, sliced_viewing hp ⟨_, rfl, rfl⟩ rfl rfl rfl, returned_of rfl rfl⟩

example : ∃ κ : Cfg Nat Nat, Reach (mem [10, 20, 30] 3 8) [10, 20, 30] κ ∧ κ.Viewing 2 ⟨1, 2⟩ [20, 30] ∧
    κ.Returned 2 (.slIterCloned ⟨1, 2⟩) (.vals [20, 30]) :=
  have hp : Possible [10, 20, 30] 3 8 (sliced (.slIterCloned ⟨1, 2⟩)) := by unfold Possible; rfl
  ⟨_, reach_after hp, sliced_viewing hp ⟨_, rfl, rfl⟩ rfl rfl rfl, returned_of rfl rfl⟩

example : ∃ κ : Cfg Nat Nat, Reach (mem [10, 20, 30] 3 8) [10, 20, 30] κ ∧
    κ.Returned 2 (.slFillWith ⟨1, 2⟩ fun i => some (100 + i)) .unit ∧ κ.Alone 2 ∧
    (Op.slFillWith ⟨1, 2⟩ fun i => some (100 + i) : Op Nat Nat).SliceFills ⟨1, 2⟩ (fun i => some (100 + i)) ∧
    κ.content 0 = some 10 ∧ κ.content 1 = some 100 ∧ κ.content 2 = some 101 :=
  have hp : Possible [10, 20, 30] 3 8 (sliced (.slFillWith ⟨1, 2⟩ fun i => some (100 + i))) := by unfold Possible; rfl
  ⟨_, reach_after hp, returned_of rfl rfl, alone_of (by decide) (by decide) (reach_after hp) rfl, ⟨rfl, fun _ => rfl⟩,
    rfl, rfl, rfl⟩

end examples

end Verif
