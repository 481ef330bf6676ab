import Verif.Proof.Owned
import Verif.Props.Progress
import Verif.Props.Holes
import Verif.Props.DemoViews

/-!
# Construction, consumption, clearing

C26, C37, C38, C44, C45.
-/

namespace Verif

variable {α β : Type} {m : Mem α} {l : List α} {κ : Cfg α β}

open Prog

/-! ## C37 -/

/-- **C37.** `from_iter`: collecting the values `xs` from an iterator with a truthful size hint `(lo, hi)`, exact or not, yields
a vector that holds exactly `xs`, and `to_vec` gives back `xs`. (`clone()` is `iter_cloned().collect()`: with the values `xs`
that `iter_cloned` yields, this says that the clone holds exactly `xs`.) -/
theorem C37_from_iter {xs : List α} {lo : Nat} {hi : Option Nat} (hlo : lo ≤ xs.length) (hhi : ∀ b, hi = some b → xs.length ≤ b)
    (hmax : xs.length ≤ doublingCap 32) :
    ∃ m', collect (xs.map some) lo hi = (.done (.ok ()), m') ∧ m'.Holds xs ∧ m'.toVec = some (.ok xs) ∧
      m'.intoInner.map Pinned.elems = some (xs.map some) := by
  obtain ⟨m', h1, h2, -⟩ := ends_fromIter hlo hhi (Pinned.toShared_init Pinned.new_ok rfl).rep hmax
  exact ⟨m', h1, h2.holds, h2.toVec, by rw [h2.intoInner]; rfl⟩

/-- **C37.** After any concurrent history in which all growth calls returned, when no call is running: the vector holds
exactly some list `vs`; `to_vec` returns `vs`; `into_inner` is a pinned vector of exactly the values `vs` with the same
capacity; and the `k`-th call of `next` of `into_iter` yields the `k`-th value, `None` after the last one. -/
theorem C37_to_vec (hm : InitMem m l) (h : Reach m l κ) (hidle : κ.Idle)
    (hall : ∀ c op k, κ.Called c op → op.size = some k → ∃ x, κ.Returned c op x) :
    ∃ vs, κ.w.mem.Holds vs ∧ κ.w.mem.toVec = some (.ok vs) ∧
      (∃ p, κ.w.mem.intoInner = some p ∧ p.elems = vs.map some ∧ p.Ok ∧ p.cap = κ.w.mem.cap ∧ p.maxCap = κ.w.mem.maxCap) ∧
      (∃ it, κ.w.mem.intoIter = some it ∧ ∀ n k, k < n → (nexts n it)[k]? = some (.ok vs[k]?)) := by
  obtain ⟨vs, hr⟩ := (h.inv hm).rep hidle hall
  refine ⟨vs, hr.holds, hr.toVec, ⟨_, hr.intoInner, rfl, ⟨?_, hr.good⟩, rfl, rfl⟩,
    ⟨vs.map some, by simp [Mem.intoIter, hr.intoInner], fun n k hk => ?_⟩⟩
  · simpa using hr.cap
  · rw [nexts_get n k _ hk, List.getElem?_map]
    rcases vs[k]? with _ | v <;> rfl

/-- **C37.** `From<pinned vec>` followed by `into_inner` is the identity, also if some elements have no value. -/
theorem C37_from_pinned {p : Pinned α} (hp : p.Ok) : p.toShared.intoInner = some p := Pinned.intoInner_toShared hp

/-- **C37.** `From<pinned vec>` of the values `vs` is a vector that holds exactly `vs` and is not in use: all properties about
executions from an initial vector apply. The constructors produce the empty vector. -/
theorem C37_initial :
    (∀ (p : Pinned α) vs, p.Ok → p.elems = vs.map some → InitMem p.toShared vs ∧ p.toShared.Holds vs) ∧
    InitMem (Pinned.new : Pinned α).toShared [] ∧
    (∀ e f, 0 < f → InitMem (Pinned.withLinearGrowth e f : Pinned α).toShared []) ∧
    (∀ c, InitMem (Pinned.withFixedCapacity c : Pinned α).toShared []) :=
  ⟨fun _ _ hp he => ⟨Pinned.toShared_init hp he, (Pinned.toShared_init hp he).rep.holds⟩,
    Pinned.toShared_init Pinned.new_ok rfl,
    fun _ _ hf => Pinned.toShared_init (Pinned.withLinearGrowth_ok hf) rfl,
    fun c => Pinned.toShared_init (Pinned.withFixedCapacity_ok c) rfl⟩

/-! ## C26 -/

/-- **C26.** When no call is running, `into_inner`, `to_vec`, `into_iter` and `clear` respect the contract of the underlying
storage if and only if nothing was overrun: no growth call failed because of the maximum capacity, and no closure of
`push_for_idx` panicked for a position that is not allocated. -/
theorem C26_works_iff (hm : InitMem m l) (h : Reach m l κ) (hidle : κ.Idle) :
    (κ.w.mem.intoInner.isSome ↔ κ.NoOverrun) ∧ (κ.w.mem.toVec.isSome ↔ κ.NoOverrun) ∧
    (κ.w.mem.intoIter.isSome ↔ κ.NoOverrun) ∧ ∀ cap maxCap, (κ.w.mem.clear cap maxCap).isSome ↔ κ.NoOverrun := by
  have hI := h.inv hm
  have key : κ.w.mem.reserved ≤ κ.w.mem.cap ↔ κ.NoOverrun := by
    refine ⟨fun hle c op k mem hp he => ⟨?_, ?_⟩, hI.reserved_le hidle⟩
    · rintro rfl
      have hcm := κ.w.mem.pol.good_le hI.inv.good
      rcases h.overrun hm hp with h1 | ⟨e, r, y, -, -, h1, -⟩
      · omega
      · rw [← hI.inv.len_eq] at h1; omega
    · rintro f rfl
      obtain ⟨ct, st, et, fin, hc⟩ := hp
      obtain ⟨r, et', fin', hc', he', rfl⟩ := he
      rw [hc] at hc'; cases hc'
      cases he'
      obtain ⟨U, d, hi⟩ := hI.panicked hc
      have h1 := hi.ev2.len
      rw [← hI.inv.len_eq, ← hi.invFin.len_eq] at h1
      omega
  have hin : κ.w.mem.intoInner.isSome ↔ κ.NoOverrun := by
    unfold Mem.intoInner
    split
    · next hle => exact ⟨fun _ => key.1 hle, fun _ => rfl⟩
    · next hle => exact ⟨fun hf => (by cases hf), fun hn => absurd (key.2 hn) hle⟩
  refine ⟨hin, by simp [Mem.toVec, hin], by simp [Mem.intoIter, hin], fun cap maxCap => ?_⟩
  unfold Mem.clear
  split
  · next hle => exact ⟨fun _ => key.1 hle, fun _ => rfl⟩
  · next hle => exact ⟨fun hf => (by cases hf), fun hn => absurd (key.2 hn) hle⟩

/-- **C26 is false**, always: after a growth call failed because of the maximum capacity and its panic was caught, whatever
happened before and since (also if the maximum capacity was raised), each of `into_inner`, `to_vec`, `into_iter` and `clear`
violates the contract of the underlying storage: it asks for more elements than exist. -/
theorem C26_always_fails (hm : InitMem m l) (h : Reach m l κ) (hidle : κ.Idle) {c : Cid} {op : Op α β}
    (hp : κ.Panicked c op .maxCapacity) :
    κ.w.mem.intoInner = none ∧ κ.w.mem.toVec = none ∧ κ.w.mem.intoIter = none ∧
    ∀ cap maxCap, κ.w.mem.clear cap maxCap = none := by
  have hno : ¬ κ.NoOverrun := by
    intro hn
    obtain ⟨ct, st, et, fin, hc⟩ := id hp
    exact (hn c op .maxCapacity fin.mem hp ⟨_, et, fin, hc, rfl, rfl⟩).1 rfl
  obtain ⟨h1, h2, h3, h4⟩ := C26_works_iff hm h hidle
  have none_of : ∀ {γ : Type} {o : Option γ}, (o.isSome ↔ κ.NoOverrun) → o = none := by
    intro γ o ho
    rcases o with _ | x
    · rfl
    · exact absurd (ho.1 rfl) hno
  exact ⟨none_of h1, none_of h2, none_of h3, fun cap maxCap => none_of (h4 cap maxCap)⟩

/-- **C26 is false**: a full vector of capacity and maximum capacity 2, one failed push. The two elements are still there. -/
theorem C26_negation : ∃ κ : Cfg Nat Nat, Reach (Demo.mem [10, 20] 2 2) [10, 20] κ ∧ κ.Idle ∧
    κ.Panicked 1 (.push 7) .maxCapacity ∧ κ.content 0 = some 10 ∧ κ.content 1 = some 20 ∧
    κ.w.mem.intoInner.isNone ∧ κ.w.mem.toVec.isNone ∧ ∀ cap maxCap, (κ.w.mem.clear cap maxCap).isNone := by
  have hposs : Demo.Possible [10, 20] 2 2 ([.call (.push 7)] ++ Demo.go 1 3) := by
    unfold Demo.Possible; rfl
  have hre := Demo.reach_after hposs
  exact ⟨_, hre, Demo.idle_of (by decide) (by decide) hre rfl, Demo.panicked_of rfl rfl, rfl, rfl, rfl, rfl, fun _ _ => rfl⟩

/-! ## C44 -/

/-- The content of the pinned vector returned by `into_inner`. -/
theorem CfgInv.intoInner_elems {σ₀ : SpecSt α} (h : CfgInv σ₀ κ) (hidle : κ.Idle) {p : Pinned α}
    (hp : κ.w.mem.intoInner = some p) : p.elems = (List.range κ.w.mem.reserved).map κ.content := by
  unfold Mem.intoInner at hp
  split at hp
  · cases hp
    exact List.map_congr_left fun i _ => h.elems_eq hidle i
  · cases hp

theorem getElem?_range_map {γ : Type} (f : Nat → γ) (n i : Nat) :
    ((List.range n).map f)[i]? = if i < n then some (f i) else none := by
  by_cases hi : i < n <;> simp [hi]

/-- **C44.** `into_inner` (when it respects the contract of the storage, C26) after any history, also with positions left
behind by panicking calls: the returned pinned vector has one element for every position that was ever given to a growth
call, which holds the value of the position, or no value exactly if the position has none. -/
theorem C44_into_inner {n : Nat} {κ : Nat → Cfg α β} (hm : InitMem m l) (h : Exec m l n κ) (hidle : (κ n).Idle) {p : Pinned α}
    (hp : (κ n).w.mem.intoInner = some p) :
    (∀ (i : Nat), i < p.elems.length → p.elems[i]? = some ((κ n).content i)) ∧
    (∀ i, p.elems.length ≤ i → (κ n).content i = none) ∧
    (∀ c b k, Received κ n c b k → b + k ≤ p.elems.length) ∧
    (∀ i, l.length ≤ i → i < p.elems.length → ∃ c b k, Received κ n c b k ∧ b ≤ i ∧ i < b + k) := by
  have hI := h.inv hm (Nat.le_refl n)
  have he := hI.intoInner_elems hidle hp
  have hlen : p.elems.length = (κ n).w.spec.len := by rw [he]; simp [hI.inv.len_eq]
  refine ⟨fun i hi => ?_, fun i hi => ?_, fun c b k hr => ?_, fun i h1 h2 => ?_⟩
  · rw [he] at hi ⊢
    rw [getElem?_range_map, if_pos (by simpa using hi)]
  · rw [hI.content_eq]
    rcases hv : (κ n).w.spec.val i with _ | v
    · rfl
    · have := hI.inv.pub_len i (by rw [hv]; rfl); omega
  · have := (hI.inv.legal.reserve_ge ((h.received_iff hm).1 hr)).2
    rw [← hI.inv.spec_eq] at this; omega
  · obtain ⟨b, k, hr, h3, h4⟩ := Legal.owner_reserved hI.inv.legal (i := i) (by rw [← hI.inv.spec_eq]; omega) h1
    exact ⟨_, b, k, (h.received_iff hm).2 hr, h3, h4⟩

/-- **C44.** `to_vec` (when it respects the contract of the storage, C26) panics if and only if there is a hole, a position
that a growth call which panicked left without a value; otherwise it returns the content. -/
theorem C44_to_vec {n : Nat} {κ : Nat → Cfg α β} (hm : InitMem m l) (h : Exec m l n κ) (hidle : (κ n).Idle)
    {r : Except PanicKind (List α)} (hr : (κ n).w.mem.toVec = some r) :
    (r = .error .unwrapNone ↔ ∃ i, Hole κ n i) ∧ (∀ k, r = .error k → k = .unwrapNone) ∧
    (∀ vs, r = .ok vs → (κ n).w.mem.Holds vs) := by
  have hI := h.inv hm (Nat.le_refl n)
  unfold Mem.toVec at hr
  rw [Option.map_eq_some_iff] at hr
  obtain ⟨p, hp, rfl⟩ := hr
  have he := hI.intoInner_elems hidle hp
  obtain ⟨h1, h2, h3, h4⟩ := C44_into_inner hm h hidle hp
  have hlen : p.elems.length = (κ n).w.mem.reserved := by rw [he]; simp
  refine ⟨?_, fun k hk => unwrapAll_kind hk, fun vs hvs i => ?_⟩
  · have hex : unwrapAll p.elems = .error .unwrapNone ↔ none ∈ p.elems := by
      rw [← unwrapAll_error]
      exact ⟨fun h => ⟨_, h⟩, fun ⟨k, hk⟩ => by rw [hk, unwrapAll_kind hk]⟩
    rw [hex, he, List.mem_map]
    constructor
    · rintro ⟨i, hi, hc⟩
      have hi : i < p.elems.length := by rw [hlen]; exact List.mem_range.1 hi
      have hil : l.length ≤ i := by
        by_contra hlt
        have := specAt_pub hI.inv.legal (i := i) (by simp [SpecSt.ofList]; omega)
        rw [← hI.inv.spec_eq, ← hI.content_eq, hc] at this; cases this
      obtain ⟨c, b, k, g1, g2, g3⟩ := h4 i hil hi
      obtain ⟨op, ⟨ct, st, s, hcs⟩, hsz⟩ := hI.reserve_call ((h.received_iff hm).1 g1)
      refine ⟨i, c, op, ?_⟩
      cases s with
      | running q => exact absurd hcs (hidle _ _ _ _ _)
      | panicked q et fin => exact ⟨q, b, k, ⟨_, _, _, _, hcs⟩, g1, g2, g3, hc⟩
      | done x et fin =>
        exfalso
        have hret : (κ n).Returned c op x := ⟨_, _, _, _, hcs⟩
        obtain ⟨b', vs, rfl, -, hvl, hdd⟩ := hI.retGrowth hret hsz
        have hbe : (c, b, k) ∈ (dataOf c (κ n).w.trace).filterMap resv :=
          mem_resv.2 (mem_dataOf.2 ⟨(h.received_iff hm).1 g1, rfl, rfl⟩)
        rw [hdd, List.filterMap_cons, resv_reserve, pubs_resv] at hbe
        simp only [List.mem_singleton, Prod.mk.injEq, and_true, true_and] at hbe
        subst hbe
        have hk : i - b < vs.length := by omega
        have hmem : Ev.publish c (b + (i - b)) (vs[i - b]) ∈ dataOf c (κ n).w.trace := by
          rw [hdd]
          exact List.mem_cons_of_mem _ (mem_pubs (List.getElem?_eq_getElem hk))
        have := hI.inv.legal.publish_pub (mem_dataOf.1 hmem).1
        rw [← hI.inv.spec_eq, show b + (i - b) = i by omega, ← hI.content_eq, hc] at this
        cases this
    · rintro ⟨i, c, op, k, b, sz, -, g1, g2, g3, g4⟩
      have := h3 c b sz g1
      exact ⟨i, List.mem_range.2 (by omega), g4⟩
  · have hev := unwrapAll_ok hvs
    by_cases hi : i < p.elems.length
    · have := h1 i hi
      rw [hev, List.getElem?_map] at this
      rcases hv : vs[i]? with _ | v
      · rw [hv] at this; cases this
      · rw [hv] at this; simpa using this.symm
    · have h5 : vs[i]? = none := by
        rw [List.getElem?_eq_none]; rw [hev, List.length_map] at hi; omega
      rw [h5]; exact h2 i (by omega)

/-- **C44.** The iterator of `into_iter` (when it respects the contract of the storage, C26): the `k`-th call of `next` yields
the value of position `k`, panics if position `k` is a hole, and yields `None` behind the last position given to a growth
call. -/
theorem C44_into_iter {n : Nat} {κ : Nat → Cfg α β} (hm : InitMem m l) (h : Exec m l n κ) (hidle : (κ n).Idle)
    {it : List (Option α)} (hr : (κ n).w.mem.intoIter = some it) {p : Pinned α} (hp : (κ n).w.mem.intoInner = some p)
    {N k : Nat} (hk : k < N) :
    (nexts N it)[k]? = some (match (κ n).content k with
      | some v => .ok (some v)
      | none => if k < p.elems.length then .error .unwrapNone else .ok none) := by
  obtain ⟨h1, h2, -, -⟩ := C44_into_inner hm h hidle hp
  unfold Mem.intoIter at hr
  rw [hp] at hr
  cases hr
  rw [nexts_get N k _ hk]
  by_cases hlt : k < p.elems.length
  · rw [h1 k hlt]
    rcases (κ n).content k with _ | v <;> simp [hlt]
  · rw [h2 k (by omega), List.getElem?_eq_none (by omega)]
    simp [hlt]

/-! ## C38 -/

/-- **C38** (partial: a vector that was overrun, C26, cannot be cleared). Clearing after any history, also with holes: the
result is an empty vector that is not in use, whatever capacities the storage keeps; hence all properties about executions
from an initial vector apply to what follows. -/
theorem C38_clear_partial (hm : InitMem m l) (h : Reach m l κ) (hidle : κ.Idle) (hno : κ.NoOverrun) {cap maxCap : Nat}
    (hg : κ.w.mem.pol.good cap maxCap) :
    ∃ m', κ.w.mem.clear cap maxCap = some m' ∧ InitMem m' [] ∧ m'.Holds [] ∧ m'.toVec = some (.ok []) := by
  obtain ⟨m', h1, h2⟩ := (h.inv hm).clear hidle ((h.inv hm).reserved_le hidle hno) hg
  exact ⟨m', h1, h2, h2.rep.holds, h2.rep.toVec⟩

/-- **C38** (partial, like `C38_clear_partial`). In every execution after `clear`, the first growth call starts at index 0. -/
theorem C38_restart_partial (hm : InitMem m l) (h : Reach m l κ) (hidle : κ.Idle) (hno : κ.NoOverrun) {cap maxCap : Nat}
    (hg : κ.w.mem.pol.good cap maxCap) {m' : Mem α} (hc : κ.w.mem.clear cap maxCap = some m') {κ' : Cfg α β}
    (h' : Reach m' [] κ') {c : Cid} {op : Op α β} {sz b : Nat} (hsz : op.size = some sz) (hr : κ'.Returned c op (.nat b))
    (hfirst : ∀ d op' n, κ'.Called d op' → op'.size = some n → 0 < n → d = c) : b = 0 := by
  obtain ⟨m1, h1, h2, -, -⟩ := C38_clear_partial hm h hidle hno hg
  rw [hc] at h1; cases h1
  have hI := h'.inv h2
  have hres := hI.retReserve hr hsz
  by_contra hb
  have hge := hI.inv.legal.reserve_ge hres
  obtain ⟨b1, n1, g1, g2, g3⟩ := Legal.owner_reserved hI.inv.legal (i := 0) (by omega) (Nat.le_refl _)
  obtain ⟨op', hcall, hs'⟩ := hI.reserve_call g1
  have hd := hfirst _ _ _ hcall hs' (by omega)
  rw [hd] at g1
  obtain ⟨b', vs, hx, -, hvl, hdd⟩ := hI.retGrowth hr hsz
  cases hx
  have hbe : (c, b1, n1) ∈ (dataOf c κ'.w.trace).filterMap resv := mem_resv.2 (mem_dataOf.2 ⟨g1, rfl, rfl⟩)
  rw [hdd, List.filterMap_cons, resv_reserve, pubs_resv] at hbe
  simp only [List.mem_singleton, Prod.mk.injEq, true_and] at hbe
  omega

/-- **C38.** `reserve_maximum_capacity(n)` never changes the content and never lowers the maximum capacity; with a growing
storage the maximum capacity is at least `n` afterwards, with a fixed one it stays as it is. -/
theorem C38_reserve (hm : InitMem m l) (h : Reach m l κ) (n : Nat) :
    (∀ i, (κ.w.mem.reserveMax n).content i = κ.content i) ∧ (κ.w.mem.reserveMax n).toVec = κ.w.mem.toVec ∧
    κ.w.mem.maxCap ≤ (κ.w.mem.reserveMax n).maxCap ∧
    ((m.pol = .doubling ∨ ∃ e, m.pol = .linear e) → n ≤ (κ.w.mem.reserveMax n).maxCap) ∧
    (m.pol = .fixed → (κ.w.mem.reserveMax n).maxCap = κ.w.mem.maxCap) := by
  have hI := h.inv hm
  have hpol : κ.w.mem.pol = m.pol := by
    obtain ⟨N, f, hex, rfl⟩ := h.exec
    have := (hex.evolves hm (Nat.zero_le N) (Nat.le_refl N)).pol
    rw [this, hex.init]; rfl
  rw [← hpol]
  have hloop : ∀ (frag : Nat → Nat) (hpos : ∀ c, 0 < frag c) k c, n - c ≤ k → n ≤ growLoop frag hpos c n := by
    intro frag hpos k
    induction k with
    | zero => intro c hk; rw [growLoop, if_neg (by omega)]; omega
    | succ k ih =>
      intro c hk
      rw [growLoop]
      split
      · exact ih _ (by have := hpos c; omega)
      · omega
  refine ⟨fun _ => rfl, ?_, (κ.w.mem.pol.reserve_ok n hI.inv.good).1, ?_, ?_⟩
  · unfold Mem.toVec Mem.intoInner
    simp only
    split <;> rfl
  · rintro (h | ⟨e, h⟩) <;> simp only [h] <;> exact hloop _ _ _ _ (Nat.le_refl _)
  · intro h; simp only [h]; rfl

/-! ## C45 -/

/-- **C45 is false.** If a pinned vector is given to `From` with an element that has no value, `get` hands out this element,
and the element methods panic on it with the internal message "ConcurrentElement must always have a value". -/
theorem C45_no_value {p : Pinned α} (hp : p.Ok) {i : Nat} (hi : p.elems[i]? = some none) :
    (Op.get i : Op α β).prog.solo p.toShared = (.done (.ok (.elem (some i))), p.toShared) ∧
    (Op.elCloned i : Op α β).prog.solo p.toShared = (.done (.error .noValue), p.toShared) := by
  have hlt : i < p.elems.length := by
    by_contra h
    rw [List.getElem?_eq_none (by omega)] at hi; cases hi
  have hst : p.toShared.st i = .NONE := by simp [Pinned.toShared, hi]
  have hcap : i < p.toShared.cap := Nat.lt_of_lt_of_le hlt hp.fits
  constructor
  · show (CVec.get i >>= fun e => .ret (.elem e) : Prog α (Ret α β)).solo _ = _
    have h1 : (CVec.get i : Prog α (Option Nat)).solo p.toShared = (.done (.ok (some i)), p.toShared) := by
      unfold CVec.get
      rw [bind_eq, solo_bind (solo_len_settled rfl hp.fits)]
      rw [if_pos (by exact hlt), solo_colGet, if_pos hcap]
    rw [bind_eq, solo_bind h1]
    rfl
  · have h0 : (COpt.lock i : Prog α Bool).solo p.toShared = (.done (.ok false), p.toShared) := by
      unfold COpt.lock
      rw [bind_eq, solo_bind (solo_spin (m' := p.toShared) (b := some CState.NONE)
        (by simp [Act.exec, hcap, hst]) rfl)]
      rfl
    have h1 : (COpt.cloneIntoOption i : Prog α (Option α)).solo p.toShared = (.done (.ok none), p.toShared) := by
      unfold COpt.cloneIntoOption
      rw [bind_eq, solo_bind h0]
      rfl
    have h2 : (Elem.cloned i : Prog α α).solo p.toShared = (.done (.error .noValue), p.toShared) := by
      unfold Elem.cloned
      rw [bind_eq, solo_bind h1]
      rfl
    show (Elem.cloned i >>= fun e => .ret (.val e) : Prog α (Ret α β)).solo _ = _
    rw [bind_eq, solo_bind_panic h2]

/-- **C45**, restricted to pinned vectors whose elements all have a value: in all executions, every element given out has a
value, and no call panics because an element has no value. -/
theorem C45_valued_partial {p : Pinned α} (hp : p.Ok) (hall : none ∉ p.elems) :
    ∃ vs, p.elems = vs.map some ∧ ∀ κ : Cfg α β, Reach p.toShared vs κ →
      (∀ c op x, κ.Returned c op x → ∀ i ∈ x.elements, (κ.content i).isSome) ∧
      ∀ c op k, κ.Panicked c op k → k ≠ .noValue := by
  rcases hu : unwrapAll p.elems with k | vs
  · exact absurd (unwrapAll_error.1 ⟨k, hu⟩) hall
  · have he := unwrapAll_ok hu
    have hm := Pinned.toShared_init hp he
    exact ⟨vs, he, fun κ h => ⟨fun c op x hr i hi => C13_has_value hm h hr hi, fun c op k hk => (C13_no_missing_value hm h hk).1⟩⟩

section examples
open Demo

/-- C37: exact and inexact size hints. -/
example : ∃ m', collect ([1, 2, 3].map some) 3 (some 3) = (.done (.ok ()), m') ∧ m'.Holds [1, 2, 3] ∧
    m'.toVec = some (.ok [1, 2, 3]) :=
  have ⟨m', h1, h2, h3, _⟩ := C37_from_iter (xs := [1, 2, 3]) (lo := 3) (hi := some 3) (by decide) (by simp) (by decide)
  ⟨m', h1, h2, h3⟩

example : ∃ m', collect ([1, 2, 3].map some) 0 none = (.done (.ok ()), m') ∧ m'.Holds [1, 2, 3] ∧
    m'.toVec = some (.ok [1, 2, 3]) :=
  have ⟨m', h1, h2, h3, _⟩ := C37_from_iter (xs := [1, 2, 3]) (lo := 0) (hi := none) (by decide) (by simp) (by decide)
  ⟨m', h1, h2, h3⟩

/-- C37: after the concurrent growth of `Demo.growth`. -/
example : Reach (mem [10, 20] 2 8) [10, 20] (after [10, 20] 2 8 growth) ∧ (after [10, 20] 2 8 growth).Idle ∧
    (∀ c op k, (after [10, 20] 2 8 growth).Called c op → op.size = some k →
      ∃ x, (after [10, 20] 2 8 growth).Returned c op x) ∧
    (after [10, 20] 2 8 growth).w.mem.toVec = some (.ok [10, 20, 1, 2, 3, 7, 9]) := by
  have hre := reach_after growth_possible
  refine ⟨hre, idle_of (by decide) (by decide) hre rfl, ?_, rfl⟩
  rintro c op k ⟨ct, st, s, hc⟩ -
  have hlt := List.mem_range.1 (known (by decide) (by decide) hre hc)
  have h0 := ((hre.inv (mem_init [10, 20] 2 8 (by decide) (by decide))).next c _ hc).1
  have key : ∀ n : Nat, 1 ≤ n → n < 4 → n = 1 ∨ n = 2 ∨ n = 3 := by omega
  have := key c h0 hlt
  rcases this with rfl | rfl | rfl <;> cases hc <;> exact ⟨_, _, _, _, _, rfl⟩

/-- C37: a pinned vector of two elements, one of which has no value. -/
example : ∃ p : Pinned Nat, p.Ok ∧ p.elems = [some 10, none] ∧ p.toShared.intoInner = some p :=
  ⟨⟨[some 10, none], 2, 8, exact⟩, ⟨by decide, by show 2 ≤ 8; decide⟩, rfl, C37_from_pinned ⟨by decide, by show 2 ≤ 8; decide⟩⟩

/-- C44, C26: the closure of a `push_for_idx` panicked (position 2), then 8 was pushed. `into_inner` works and shows the hole,
`to_vec` panics, `into_iter` yields the two values before the hole, then panics, then yields the value behind the hole. -/
example : (after [10, 20] 4 8 hole).Idle ∧ (after [10, 20] 4 8 hole).NoOverrun ∧
    (after [10, 20] 4 8 hole).w.mem.intoInner.map Pinned.elems = some [some 10, some 20, none, some 8] ∧
    (after [10, 20] 4 8 hole).w.mem.toVec = some (.error .unwrapNone) ∧
    (after [10, 20] 4 8 hole).w.mem.intoIter.map (nexts 6) =
      some [.ok (some 10), .ok (some 20), .error .unwrapNone, .ok (some 8), .ok none, .ok none] := by
  have hre := reach_after (l := [10, 20]) (cap := 4) (maxCap := 8) (chs := hole) (by unfold Possible; rfl)
  have hidle := idle_of (by decide) (by decide) hre rfl
  exact ⟨hidle, (C26_works_iff (mem_init _ _ _ (by decide) (by decide)) hre hidle).1.1 rfl, rfl, rfl, rfl⟩

/-- C38: the same vector is cleared; afterwards `push 5` returns 0. -/
example : (after [10, 20] 4 8 hole).w.mem.pol.good 4 8 ∧ ∃ m', (after [10, 20] 4 8 hole).w.mem.clear 4 8 = some m' ∧
    ∃ κ' : Cfg Nat Nat, Reach m' [] κ' ∧ κ'.Returned 1 (.push 5) (.nat 0) := by
  refine ⟨by show 4 ≤ 8; decide, _, rfl, _, Reach.of_run .init (chs := [.call (.push 5)] ++ go 1 6) rfl, returned_of rfl rfl⟩

/-- C45 -/
example : ∃ p : Pinned Nat, p.Ok ∧ p.elems[1]? = some none :=
  ⟨⟨[some 10, none], 2, 8, exact⟩, ⟨by decide, by show 2 ≤ 8; decide⟩, rfl⟩

end examples

end Verif
