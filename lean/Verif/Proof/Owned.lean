import Verif.Spec.Owned
import Verif.Proof.SoloRun
import Verif.Proof.Progress

/-!
# Functions that own the vector

Helper file (no property statements).
-/

namespace Verif

variable {α β : Type} {m : Mem α} {l : List α} {κ : Cfg α β}

open Prog

theorem CfgInv.idle_holder {σ₀ : SpecSt α} (h : CfgInv σ₀ κ) (hidle : κ.Idle) (i : Nat) : κ.w.holder i = none := by
  rcases hh : κ.w.holder i with _ | d
  · rfl
  · obtain ⟨⟨op, ct, st, s⟩, p, hr, rfl⟩ := h.holder hh
    exact absurd hr (hidle d op ct st p)

theorem CfgInv.idle_st {σ₀ : SpecSt α} (h : CfgInv σ₀ κ) (hidle : κ.Idle) (i : Nat) :
    κ.w.mem.st i = .NONE ∨ κ.w.mem.st i = .SOME := by
  rcases hst : κ.w.mem.st i with _ | _ | _
  · exact .inl rfl
  · have := (h.inv.lock i).1 hst
    rw [h.idle_holder hidle] at this; cases this
  · exact .inr rfl

/-- If nothing was lost, the number of reserved positions does not exceed the capacity. -/
theorem CfgInv.reserved_le (h : CfgInv (.ofList l) κ) (hidle : κ.Idle) (hp : κ.NoOverrun) :
    κ.w.mem.reserved ≤ κ.w.mem.cap := by
  by_contra hcl
  rw [h.inv.len_eq] at hcl
  have hnone : ∀ j, κ.w.mem.cap ≤ j → κ.w.spec.val j = none := by
    intro j hj
    rcases hv : κ.w.spec.val j with _ | v
    · rfl
    · have := h.inv.pub_cap j (by rw [hv]; rfl); omega
  obtain ⟨b, n, hres, hb1, hb2⟩ := Legal.owner_reserved h.inv.legal (i := κ.w.mem.cap)
    (by rw [← h.inv.spec_eq]; omega) h.len0_cap
  rw [← h.inv.spec_eq] at hres
  generalize hd : κ.w.spec.owner κ.w.mem.cap = d at *
  obtain ⟨op, ⟨ct, st, s, hcd⟩, hsz⟩ := h.reserve_call hres
  have hfm : (d, b, n) ∈ (dataOf d κ.w.trace).filterMap resv :=
    mem_resv.2 (mem_dataOf.2 ⟨hres, rfl, rfl⟩)
  cases s with
  | running p => exact hidle _ _ _ _ _ hcd
  | done x et fin =>
    obtain ⟨dd, hi⟩ := h.returned hcd
    obtain ⟨b', vs, -, -, hvl, hdd, -⟩ := hi.growth hsz
    rw [hi.data, hdd, List.filterMap_cons, resv_reserve, pubs_resv] at hfm
    simp only [List.mem_singleton, Prod.mk.injEq, and_true, true_and] at hfm
    subst hfm
    have hk : κ.w.mem.cap - b < vs.length := by omega
    have hmem : Ev.publish d (b + (κ.w.mem.cap - b)) (vs[κ.w.mem.cap - b]) ∈ dataOf d κ.w.trace := by
      rw [hi.data, hdd]
      exact List.mem_cons_of_mem _ (mem_pubs (List.getElem?_eq_getElem hk))
    have := h.inv.legal.publish_pub (mem_dataOf.1 hmem).1
    rw [← h.inv.spec_eq, show b + (κ.w.mem.cap - b) = κ.w.mem.cap by omega, hnone _ (Nat.le_refl _)] at this
    cases this
  | panicked k et fin =>
    obtain ⟨U, dd, hi⟩ := h.panicked hcd
    obtain ⟨hp1, hp2⟩ := hp d op k fin.mem ⟨ct, st, et, fin, hcd⟩ ⟨_, et, fin, hcd, rfl, rfl⟩
    have hcap := hi.ev2.cap
    have hlen2 := hi.invFin.len_eq
    have hout := hi.out
    have hgrow : ∀ items b', FailGrow d st fin items n U dd k b' → False := by
      intro items b' hf
      obtain ⟨hd1, hd2⟩ := hf.bound
      rw [hi.data, hd1] at hfm
      simp only [List.mem_singleton, Prod.mk.injEq, and_true, true_and] at hfm
      subst hfm
      rcases hd2 with ⟨hk, -⟩ | hle
      · exact hp1 hk
      · omega
    cases op <;> simp only [Op.size, Option.some.injEq, reduceCtorEq] at hsz <;> simp only [Op.Failure] at hout
    case push v =>
      obtain ⟨i', -, rfl, -⟩ := hout
      exact hp1 rfl
    case pushForIdx f =>
      obtain ⟨i', -, hdd, hU, ho'⟩ := hout
      rw [hi.data, hdd] at hfm
      simp only [List.filterMap_cons, resv_reserve, List.filterMap_nil, List.mem_singleton, Prod.mk.injEq,
        true_and] at hfm
      have h1 := hp2 f rfl
      have h2 : b < fin.spec.len := by
        have hmem : Ev.reserve d b n ∈ fin.trace := by
          have : Ev.reserve d b n ∈ dataOf d fin.trace := by rw [hi.dataFin, hdd]; simp [hfm]
          exact (mem_dataOf.1 this).1
        have := (hi.invFin.legal.reserve_ge hmem)
        rw [← hi.invFin.spec_eq] at this
        omega
      omega
    case extend it => subst hsz; obtain ⟨b', hf⟩ := hout; exact hgrow _ b' hf
    case extendN items n' => subst hsz; obtain ⟨b', hf⟩ := hout; exact hgrow _ b' hf
    case extendForIdx f n' =>
      subst hsz
      obtain ⟨b', ⟨-, hf⟩ | ⟨it, -, -, hf⟩ | ⟨-, hdd, -, hcp, -⟩⟩ := hout
      · exact hgrow _ b' hf
      · exact hgrow _ b' hf
      · rw [hi.data, hdd] at hfm
        simp only [List.filterMap_cons, resv_reserve, List.filterMap_nil, List.mem_singleton, Prod.mk.injEq,
          and_true, true_and] at hfm
        subst hfm
        have := hcp (by omega)
        omega

/-- The elements that `into_inner` finds. -/
theorem CfgInv.elems_eq {σ₀ : SpecSt α} (h : CfgInv σ₀ κ) (hidle : κ.Idle) (i : Nat) :
    (if κ.w.mem.st i = .SOME then κ.w.mem.val i else none) = κ.w.mem.content i := by
  unfold Mem.content
  rcases h.idle_st hidle i with hs | hs <;> simp [hs]

theorem Mem.Half.elems {r : Nat} (h : m.Half l r) (i : Nat) : (if m.st i = .SOME then m.val i else none) = l[i]? := by
  rw [h.st, h.val]
  by_cases hi : i < l.length <;> simp [hi]

theorem range_map_getElem? (l : List α) : (List.range l.length).map (fun i => l[i]?) = l.map some := by
  apply List.ext_getElem?
  intro i
  simp only [List.getElem?_map]
  by_cases hi : i < l.length
  · simp [hi]
  · simp [hi]

theorem Mem.Half.intoInner (h : m.Rep l) : m.intoInner = some ⟨l.map some, m.cap, m.maxCap, m.pol⟩ := by
  unfold Mem.intoInner
  rw [if_pos (by rw [h.reserved]; exact h.cap), h.reserved]
  simp only [Option.some.injEq, Pinned.mk.injEq, and_true]
  rw [← range_map_getElem?]
  exact List.map_congr_left fun i _ => h.elems i

theorem unwrapAll_map_some (l : List α) : unwrapAll (l.map some) = .ok l := by
  induction l with
  | nil => rfl
  | cons v l ih => simp [unwrapAll, ih, Except.map]

theorem Mem.Half.toVec (h : m.Rep l) : m.toVec = some (.ok l) := by
  simp [Mem.toVec, h.intoInner, unwrapAll_map_some]

theorem unwrapAll_ok {es : List (Option α)} {vs : List α} (h : unwrapAll es = .ok vs) : es = vs.map some := by
  induction es generalizing vs with
  | nil => simp only [unwrapAll, Except.ok.injEq] at h; subst h; rfl
  | cons e es ih =>
    cases e with
    | none => simp [unwrapAll] at h
    | some v =>
      simp only [unwrapAll] at h
      rcases hx : unwrapAll es with k | ws
      · rw [hx] at h; cases h
      · rw [hx] at h
        simp only [Except.map, Except.ok.injEq] at h
        subst h
        rw [List.map_cons, ih hx]

theorem unwrapAll_error {es : List (Option α)} : (∃ k, unwrapAll es = .error k) ↔ none ∈ es := by
  induction es with
  | nil => simp [unwrapAll]
  | cons e es ih =>
    cases e with
    | none => simp [unwrapAll]
    | some v =>
      rw [unwrapAll]
      simp only [List.mem_cons, reduceCtorEq, false_or]
      rw [← ih]
      rcases hx : unwrapAll es with k | ws <;> simp [Except.map]

theorem unwrapAll_kind {es : List (Option α)} {k : PanicKind} (h : unwrapAll es = .error k) : k = .unwrapNone := by
  induction es with
  | nil => simp [unwrapAll] at h
  | cons e es ih =>
    cases e with
    | none => simp only [unwrapAll, Except.error.injEq] at h; exact h.symm
    | some v =>
      rw [unwrapAll] at h
      rcases hx : unwrapAll es with k' | ws
      · rw [hx] at h
        simp only [Except.map, Except.error.injEq] at h
        subst h; exact ih hx
      · rw [hx] at h; simp [Except.map] at h

theorem nexts_length (n : Nat) : ∀ es : List (Option α), (nexts n es).length = n := by
  induction n with
  | zero => intro es; rfl
  | succ n ih => intro es; simp [nexts, ih]

/-- The `k`-th call of `next`. -/
theorem nexts_get : ∀ (n k : Nat) (es : List (Option α)), k < n → (nexts n es)[k]? = some (match es[k]? with
    | some (some v) => .ok (some v)
    | some none => .error .unwrapNone
    | none => .ok none) := by
  intro n
  induction n with
  | zero => intro k es h; omega
  | succ n ih =>
    intro k es h
    cases k with
    | zero =>
      simp only [nexts, List.getElem?_cons_zero, Option.some.injEq]
      rcases es with _ | ⟨_ | v, es⟩ <;> rfl
    | succ k =>
      simp only [nexts, List.getElem?_cons_succ]
      rw [ih k _ (by omega)]
      rcases es with _ | ⟨_ | v, es⟩ <;> simp [valuesNext]

/-- Clearing yields a vector that is not in use and empty. -/
theorem CfgInv.clear (h : CfgInv (.ofList l) κ) (hidle : κ.Idle) (hle : κ.w.mem.reserved ≤ κ.w.mem.cap) {cap maxCap : Nat}
    (hg : κ.w.mem.pol.good cap maxCap) : ∃ m', κ.w.mem.clear cap maxCap = some m' ∧ InitMem m' [] := by
  unfold Mem.clear
  rw [if_pos hle]
  have hgrow : κ.w.grower = none := by
    rcases hh : κ.w.grower with _ | d
    · rfl
    · obtain ⟨⟨op, ct, st, s⟩, p, hr, rfl⟩ := h.grower hh
      exact absurd hr (hidle d op ct st p)
  refine ⟨_, rfl, rfl, rfl, fun i => ?_, fun i => ?_, Nat.zero_le _, rfl, ?_, hg⟩
  · simp only [List.length_nil, Nat.not_lt_zero, if_false]
    split
    · rfl
    · next hi =>
      rw [h.inv.st_none]
      rcases hv : κ.w.spec.val i with _ | v
      · rfl
      · have := h.inv.pub_len i (by rw [hv]; rfl)
        rw [← h.inv.len_eq] at this
        exact absurd this hi
  · simp only [List.getElem?_nil]
    split
    · rfl
    · next hi => exact h.inv.unres i (by rw [← h.inv.len_eq]; omega)
  · simp only [h.inv.growing, hgrow]; rfl

theorem Pinned.toShared_init {p : Pinned α} (hp : p.Ok) {vs : List α} (he : p.elems = vs.map some) : InitMem p.toShared vs := by
  refine ⟨by simp [toShared, he], by simp [toShared, he], fun i => ?_, fun i => ?_, ?_, rfl, rfl, hp.good⟩
  · simp only [toShared, he, List.getElem?_map]
    by_cases hi : i < vs.length
    · simp [hi]
    · simp [hi]
  · simp only [toShared, he, List.getElem?_map]
    by_cases hi : i < vs.length
    · simp [hi]
    · simp [hi]
  · have := hp.fits
    rw [he, List.length_map] at this
    exact this

theorem Pinned.intoInner_toShared {p : Pinned α} (hp : p.Ok) : p.toShared.intoInner = some p := by
  unfold Mem.intoInner
  rw [if_pos (by exact hp.fits)]
  obtain ⟨es, c, mx, pol⟩ := p
  simp only [toShared, Option.some.injEq, Pinned.mk.injEq, and_true]
  apply List.ext_getElem?
  intro i
  simp only [List.getElem?_map]
  by_cases hi : i < es.length
  · simp only [List.getElem?_range hi, List.getElem?_eq_getElem hi, Option.map_some, Option.join_some]
    rcases es[i] with _ | v <;> simp
  · simp [hi]

theorem Pinned.new_ok : (Pinned.new : Pinned α).Ok := by
  refine ⟨Nat.zero_le _, doublingCap_mono (by decide), ⟨1, rfl⟩, ⟨32, rfl⟩⟩

theorem Pinned.withLinearGrowth_ok {e f : Nat} (hf : 0 < f) : (Pinned.withLinearGrowth e f : Pinned α).Ok :=
  ⟨Nat.zero_le _, Nat.le_mul_of_pos_left _ hf, Nat.dvd_refl _, Nat.dvd_mul_left _ _⟩

theorem Pinned.withFixedCapacity_ok (c : Nat) : (Pinned.withFixedCapacity c : Pinned α).Ok := ⟨Nat.zero_le _, rfl⟩

theorem ends_pushAll : ∀ (xs : List α) {m : Mem α} {l : List α}, m.Rep l → l.length + xs.length ≤ m.maxCap →
    Ends (CVec.pushAll (xs.map some)) m (l ++ xs) (.ok ()) := by
  intro xs
  induction xs with
  | nil =>
    intro m l h _
    refine ⟨m, rfl, by simpa using h, rfl⟩
  | cons x xs ih =>
    intro m l h hle
    simp only [List.length_cons] at hle
    obtain ⟨m1, h1, h2, h3⟩ := ends_push h (by omega) x
    obtain ⟨m2, h4, h5, h6⟩ := ih h2 (by rw [h3]; simp; omega)
    refine ⟨m2, ?_, by simpa using h5, h6.trans h3⟩
    simp only [List.map_cons, CVec.pushAll]
    rw [bind_eq, solo_bind h1]
    exact h4

theorem ends_fromIter {xs : List α} {lo : Nat} {hi : Option Nat} (hlo : lo ≤ xs.length)
    (hhi : ∀ b, hi = some b → xs.length ≤ b) {m : Mem α} (h : m.Rep []) (hle : xs.length ≤ m.maxCap) :
    Ends (CVec.fromIter (xs.map some) lo hi) m xs (.ok ()) := by
  unfold CVec.fromIter
  split
  · next heq =>
    have : lo = xs.length := by have := hhi _ heq; omega
    subst this
    obtain ⟨m1, h1, h2, h3⟩ := ends_extendN h (items := xs.map some) (n := xs.length) (by simpa using hle)
      ⟨by simp, fun o ho => by obtain ⟨v, -, rfl⟩ := List.mem_map.1 (List.mem_of_mem_take ho); rfl⟩
    refine ⟨m1, ?_, ?_, h3⟩
    · rw [bind_eq, solo_bind h1]; rfl
    · simpa [itemsOf, List.take_of_length_le] using h2
  · simpa using ends_pushAll xs h (by simpa using hle)

end Verif
