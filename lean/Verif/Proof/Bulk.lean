import Verif.Proof.Writes

/-!
# Operations on all elements

Helper file (no property statements).
-/

namespace Verif

variable {α β : Type} {m : Mem α} {l : List α} {n : Nat} {κ : Nat → Cfg α β}

theorem Exec.holding_all (h : Exec m l n κ) (hm : InitMem m l) {c : Cid} {op : Op α β} {x : Ret α β} {vs : List α}
    (hr : (κ n).Returned c op x) (hh : (κ n).Holding c vs) (hnw : op.NoWrite) (hsz : op.size = none) :
    ∃ w0 w d, op.Outcome c w0 w d x ∧ (∀ len, LenOK c w0 len w → len = vs.length) ∧
      ∀ xs, d = reads c 0 xs → xs.length ≤ vs.length → xs = vs.take xs.length := by
  obtain ⟨ct, st, et, fin, hc⟩ := hr
  obtain ⟨d, hi⟩ := (h.inv hm (Nat.le_refl n)).returned hc
  exact ⟨st, fin, d, hi.out, fun len hl => h.holding_len hm hh hc rfl hsz hl,
    fun xs hx hlen => h.holding_reads hm hc hnw hh (hi.data.trans hx) hlen⟩

theorem Exec.viewing_all (h : Exec m l n κ) (hm : InitMem m l) {c : Cid} {op : Op α β} {x : Ret α β} {s : Slc}
    {vs : List α} (hr : (κ n).Returned c op x) (hv : (κ n).Viewing c s vs) (hnw : op.NoWrite) :
    ∃ w0 w d, op.Outcome c w0 w d x ∧ s.len = vs.length ∧
      ∀ xs, d = reads c s.a xs → xs.length ≤ vs.length → xs = vs.take xs.length := by
  obtain ⟨ct, st, et, fin, hc⟩ := hr
  obtain ⟨d, hi⟩ := (h.inv hm (Nat.le_refl n)).returned hc
  exact ⟨st, fin, d, hi.out, hv.len.symm,
    fun xs hx hlen => h.viewing_reads hm hc hnw hv (hi.data.trans hx) (by rw [← hv.len]; exact hlen)⟩

section pure
variable {c : Cid} {a len : Nat} {d : List (Ev α)} {vs : List α}

/-- The reads of a call that sees `vs`. -/
def Sees (c : Cid) (a : Nat) (d : List (Ev α)) (vs : List α) : Prop :=
  ∀ xs, d = reads c a xs → xs.length ≤ vs.length → xs = vs.take xs.length

theorem Sees.all (h : Sees c a d vs) {xs : List α} (hd : d = reads c a xs) (hl : xs.length = vs.length) : xs = vs := by
  have := h xs hd (by omega)
  rwa [hl, List.take_length] at this

theorem OutMap.eq {f : α → Option β} {bs : List β} (h : OutMap c a len f d bs) (hl : len = vs.length)
    (hs : Sees c a d vs) : vs.map f = bs.map some := by
  obtain ⟨xs, h1, h2, h3⟩ := h
  rw [← hs.all h2 (h1.trans hl)]; exact h3

theorem selected_eq (f : α → Option Bool) : ∀ (a : Nat) (vs : List α),
    selected f a vs = ((vs.zip (List.range' a vs.length)).filter fun p => f p.1 == some true).map Prod.snd
  | a, [] => rfl
  | a, v :: vs => by
    rw [selected, selected_eq f (a + 1) vs, List.length_cons, List.range'_succ, List.zip_cons_cons, List.filter_cons]
    by_cases hv : f v = some true
    · simp [hv]
    · simp [hv]

theorem OutFilter.eq {f : α → Option Bool} {ps : List Nat} (h : OutFilter c a len f d ps) (hl : len = vs.length)
    (hs : Sees c a d vs) : (∀ v ∈ vs, f v ≠ none) ∧
      ps = ((vs.zip (⟨a, len⟩ : Slc).view).filter fun p => f p.1 == some true).map Prod.snd := by
  obtain ⟨xs, h1, h2, h3, h4⟩ := h
  have := hs.all h2 (h1.trans hl)
  subst this
  refine ⟨h3, ?_⟩
  rw [h4, selected_eq, view_eq, ← h1]

theorem OutFold.eq {f : β → α → Option β} {init b : β} (h : OutFold c a len f init d b) (hl : len = vs.length)
    (hs : Sees c a d vs) : vs.foldlM f init = some b := by
  obtain ⟨xs, h1, h2, h3⟩ := h
  rw [← hs.all h2 (h1.trans hl)]; exact h3

/-- `Iterator::reduce` of a list with a closure that may panic. -/
def reduceM (f : α → α → Option α) : List α → Option (Option α)
  | [] => some none
  | v :: vs => (vs.foldlM f v).map some

theorem OutReduce.eq {f : α → α → Option α} {o : Option α} (h : OutReduce c a len f d o) (hl : len = vs.length)
    (hs : Sees c a d vs) : reduceM f vs = some o := by
  rcases h with ⟨h1, h2, rfl⟩ | ⟨v, xs, b, h1, h2, h3, rfl⟩
  · have : vs = [] := List.eq_nil_of_length_eq_zero (by omega)
    rw [this]; rfl
  · rw [← hs.all h2 (by simp; omega)]
    simp [reduceM, h3]

theorem OutPosition.eq {veq : α → α → Bool} {t : α} {o : Option Nat} (h : OutPosition c a len veq t d o)
    (hl : len = vs.length) (hs : Sees c a d vs) : o = vs.findIdx? fun v => veq v t := by
  rcases h with ⟨xs, h1, h2, h3, rfl⟩ | ⟨xs, y, h1, h2, h3, h4, rfl⟩
  · rw [← hs.all h2 (h1.trans hl)]
    symm
    rw [List.findIdx?_eq_none_iff]
    exact h3
  · have h5 := hs _ h2 (by simp; omega)
    have h6 : vs = xs ++ y :: vs.drop (xs ++ [y]).length := by
      conv_lhs => rw [← List.take_append_drop (xs ++ [y]).length vs, ← h5]
      simp
    rw [h6, List.findIdx?_append]
    have : xs.findIdx? (fun v => veq v t) = none := List.findIdx?_eq_none_iff.2 h3
    rw [this]
    simp [List.findIdx?_cons, h4]

theorem OutEq.eq {veq : α → α → Option Bool} {ts : List α} {b : Bool} (h : OutEq c a len veq ts d b)
    (hl : len = vs.length) (hs : Sees c a d vs) :
    b = true ↔ vs.length = ts.length ∧ ∀ (i : Nat) u v, vs[i]? = some u → ts[i]? = some v → veq u v = some true := by
  have hzip : ∀ {xs ts : List α} {p : α × α}, p ∈ xs.zip ts ↔ ∃ i : Nat, xs[i]? = some p.1 ∧ ts[i]? = some p.2 := by
    intro xs ts p
    rw [List.mem_iff_getElem?]
    apply exists_congr
    intro i
    rw [List.getElem?_zip_eq_some]
  rcases h with ⟨xs, h1, h2, h3, rfl⟩ | ⟨xs, x, t, h1, h2, -, h3, h4, rfl⟩
  · rw [decide_eq_true_iff, ← hl]
    refine ⟨fun he => ⟨he, fun i u v hu hv => ?_⟩, fun h => h.1⟩
    have := hs.all h2 (by omega)
    subst this
    exact h3 (u, v) (hzip.2 ⟨i, hu, hv⟩)
  · refine ⟨(fun h => by cases h), ?_⟩
    rintro ⟨h5, h6⟩
    exfalso
    have h7 := hs _ h2 (by simp; omega)
    have hu : vs[xs.length]? = some x := by
      have : (xs ++ [x])[xs.length]? = some x := by simp
      rw [h7, List.getElem?_take_of_lt (by simp)] at this
      exact this
    rw [h6 _ _ _ hu h3] at h4
    cases h4

end pure

theorem Exec.early (h : Exec m l n κ) (hm : InitMem m l) {c : Cid} {r : Rec α β} (hc : (κ n).calls c = some r)
    {et : Nat} {fin : World α} (he : r.status.ended = some (et, fin)) {len : Nat} (hl : Early c r.start len fin)
    {t : Nat} (ht : t < n) {e : Ev α} (hcall : r.callT ≤ t) (hh : Happens κ t e)
    (hdat : e.isData = true) (hcid : e.cid = c) :
    ∀ j, j < len → ((κ t).content j).isSome := by
  intro j hj
  obtain ⟨u, u', h1, h2, h3⟩ := hl
  obtain ⟨e1, e2, e3, e4, e5⟩ := h.ends hm hc he
  have hIt := h.inv hm (by omega : t ≤ n)
  have hIc := h.inv hm (by omega : r.callT ≤ n)
  have hpre : r.start.trace ++ u <+: (κ t).w.trace := by
    have p1 : r.start.trace ++ u <+: (κ n).w.trace := by
      refine List.IsPrefix.trans ?_ (h.evolves hm (by omega : et ≤ n) (Nat.le_refl n)).trace
      rw [← e4, h1]; exact List.prefix_append _ _
    have p2 : (κ (t + 1)).w.trace <+: (κ n).w.trace := (h.evolves hm (by omega) (Nat.le_refl n)).trace
    rcases List.prefix_or_prefix_of_prefix p1 p2 with hp | hp
    · unfold Happens at hh
      rw [hh] at hp
      rcases List.prefix_concat_iff.1 hp with hp | hp
      · rw [hp, dataOf_append, dataOf_cons_data (e := e) (c := c) hdat hcid] at h2
        simp at h2
      · exact hp
    · exfalso
      obtain ⟨z, hz⟩ := hp
      unfold Happens at hh
      rw [hh] at hz
      rw [← hz, dataOf_append, dataOf_append, dataOf_cons_data (e := e) (c := c) hdat hcid] at h2
      simp at h2
  obtain ⟨z, hz⟩ := hpre
  have hleg := hIt.inv.legal
  rw [hIt.content_eq, hIt.inv.spec_eq, ← hz, specAt_append, specAt_append]
  have h4 : specAt (SpecSt.ofList l) r.start.trace = r.start.spec := by rw [e3, hIc.inv.spec_eq]
  rw [h4]
  refine specAt_pub ?_ (h3 j hj)
  rw [← hz] at hleg
  have := hleg.suffix
  rwa [specAt_append, h4] at this

/-- Steps of a call whose data events are writes. -/
theorem Exec.fill_all (h : Exec m l n κ) (hm : InitMem m l) {c : Cid} {a : Nat}
    {ps : List (α × α)} (hd : dataOf c (κ n).w.trace = writes c a ps) :
    (∀ t, t < n → (κ t).Moves c (κ (t + 1)) → ∀ i, (κ t).content i ≠ (κ (t + 1)).content i →
      ∃ (j : Nat) (p : α × α), i = a + j ∧ ps[j]? = some p ∧ (κ (t + 1)).content i = some p.2) ∧
    (∀ (j : Nat) p, ps[j]? = some p → ∃ t, t < n ∧ (κ n).During c t ∧ (κ t).Moves c (κ (t + 1)) ∧
      (κ (t + 1)).content (a + j) = some p.2) := by
  constructor
  · intro t ht hmv i hne
    obtain ⟨e, d1, d2, k1, k2, k3, k4, k5, k6, k7⟩ := h.change_mine hm ht hmv hne
    have hmem : e ∈ writes c a ps := by rw [← hd, k3]; simp
    obtain ⟨j, p, hp, rfl⟩ := mem_writes hmem
    rcases k7 with k7 | ⟨_, _, k7⟩
    · simp only [Ev.Modifies] at k7
      subst k7
      refine ⟨j, p, rfl, hp, ?_⟩
      rw [(h.inv hm (by omega : t + 1 ≤ n)).content_eq, k6]
      simp [specNext, upd]
    · cases k7
  · intro j p hp
    rw [writes_split hp] at hd
    obtain ⟨t, h1, h2, h3, h4, h5, h6⟩ := h.data_time hm hd
    refine ⟨t, h1, h4, (h.next t h1).event_moves h3, ?_⟩
    rw [(h.inv hm (by omega : t + 1 ≤ n)).content_eq, h6]
    simp [specNext, upd]

theorem Op.Fills.out {op : Op α β} {g : Nat → Option α} (h : op.Fills g) {c : Cid} {w0 w : World α} {d : List (Ev α)}
    {x : Ret α β} (ho : op.Outcome c w0 w d x) : op.size = none ∧ ∃ len ps, LenOK c w0 len w ∧ x = .unit ∧ Early c w0 len w ∧
      ps.length = len ∧ d = writes c 0 ps ∧ ∀ (j : Nat) p, ps[j]? = some p → g j = some p.2 := by
  cases op <;> simp only [Op.Fills] at h
  · obtain ⟨len, h1, h2, ⟨olds, h3, h4⟩, h5⟩ := ho
    refine ⟨rfl, len, _, h1, h2, h5, (by simpa using h3), h4, fun j p hp => ?_⟩
    rw [List.getElem?_map, Option.map_eq_some_iff] at hp
    obtain ⟨o, -, rfl⟩ := hp
    exact h j
  · obtain ⟨len, h1, h2, ⟨ps, h3, h4, h6⟩, h5⟩ := ho
    refine ⟨rfl, len, ps, h1, h2, h5, h3, h4, fun j p hp => ?_⟩
    obtain ⟨hj, rfl⟩ := List.getElem?_eq_some_iff.1 hp
    rw [h j]; exact h6 j hj

theorem Op.SliceFills.out {op : Op α β} {s : Slc} {g : Nat → Option α} (h : op.SliceFills s g) {c : Cid} {w0 w : World α}
    {d : List (Ev α)} {x : Ret α β} (ho : op.Outcome c w0 w d x) : ∃ ps, x = .unit ∧
      ps.length = s.len ∧ d = writes c s.a ps ∧ ∀ (j : Nat) p, ps[j]? = some p → g j = some p.2 := by
  cases op <;> simp only [Op.SliceFills] at h
  · obtain ⟨rfl, h⟩ := h
    obtain ⟨h2, ⟨olds, h3, h4⟩⟩ := ho
    refine ⟨_, h2, (by simpa using h3), h4, fun j p hp => ?_⟩
    rw [List.getElem?_map, Option.map_eq_some_iff] at hp
    obtain ⟨o, -, rfl⟩ := hp
    exact h j
  · obtain ⟨rfl, h⟩ := h
    obtain ⟨h2, ⟨ps, h3, h4, h6⟩⟩ := ho
    refine ⟨ps, h2, h3, h4, fun j p hp => ?_⟩
    obtain ⟨hj, rfl⟩ := List.getElem?_eq_some_iff.1 hp
    rw [h j]; exact h6 j hj

end Verif
