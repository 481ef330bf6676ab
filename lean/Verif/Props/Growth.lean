import Verif.Proof.GrowthLemmas
import Verif.Props.Demo

/-!
# Growth: C01 – C05

Each property theorem speaks about *every* configuration `κ` reachable by concurrent use (`Reach`), or every
execution (`Exec`), of a vector that initially holds the list `l` (`InitMem`): any number of calls of any API
functions, any interleaving, any call stalled at any point.
-/

namespace Verif

variable {α β : Type} {m : Mem α} {l : List α} {κ : Cfg α β}

/-! ## C01 -/

/-- **C01.** Two different growth calls that returned received disjoint index ranges. -/
theorem C01_disjoint (hm : InitMem m l) (h : Reach m l κ) {c1 c2 : Cid} {op1 op2 : Op α β} {n1 n2 b1 b2 : Nat}
    (hs1 : op1.size = some n1) (hs2 : op2.size = some n2) (hne : c1 ≠ c2)
    (h1 : κ.Returned c1 op1 (.nat b1)) (h2 : κ.Returned c2 op2 (.nat b2)) :
    ∀ i, ¬ ((b1 ≤ i ∧ i < b1 + n1) ∧ (b2 ≤ i ∧ i < b2 + n2)) := by
  intro i ⟨hi1, hi2⟩
  have hI := h.inv hm
  exact hne (hI.inv.legal.reserve_inj (hI.retReserve h1 hs1) (hI.retReserve h2 hs2) hi1 hi2)

/-- **C01.** A growth call returns an index, and its positions are not among those of the initial content. -/
theorem C01_fresh (hm : InitMem m l) (h : Reach m l κ) {c : Cid} {op : Op α β} {n : Nat} {x : Ret α β}
    (hs : op.size = some n) (hr : κ.Returned c op x) : ∃ b, x = .nat b ∧ l.length ≤ b := by
  have hI := h.inv hm
  obtain ⟨b, vs, rfl, -⟩ := hI.retGrowth hr hs
  exact ⟨b, rfl, (hI.inv.legal.reserve_ge (hI.retReserve hr hs)).1⟩

section examples
open Demo

/-- Two overlapping growth calls, positions `[5, 6)` and `[2, 5)`. -/
example : Reach (mem [10, 20] 2 8) [10, 20] (after [10, 20] 2 8 growth) ∧
    (after [10, 20] 2 8 growth).Returned 1 (.push 7) (.nat 5) ∧
    (after [10, 20] 2 8 growth).Returned 2 (.extend (.ofList [1, 2, 3])) (.nat 2) :=
  ⟨reach_after growth_possible, returned_of rfl rfl, returned_of rfl rfl⟩

example (i : Nat) : ¬ ((5 ≤ i ∧ i < 5 + 1) ∧ (2 ≤ i ∧ i < 2 + 3)) :=
  C01_disjoint (mem_init [10, 20] 2 8 (by decide) (by decide)) (reach_after growth_possible)
    (c1 := 1) (c2 := 2) (op1 := .push 7) (op2 := .extend (.ofList [1, 2, 3])) rfl rfl (by decide)
    (returned_of rfl rfl) (returned_of rfl rfl) i

end examples

/-! ## C02 -/

/-- **C02.** `extend` (and every other growth call) that returned `b` stored its values consecutively from `b`:
for each `k` there is a moment between its invocation and its return at which position `b + k` had no value and
right after which it had the `k`-th value. -/
theorem C02_received {n : Nat} {κ : Nat → Cfg α β} (hm : InitMem m l) (h : Exec m l n κ) {c : Cid} {op : Op α β}
    {s b : Nat} (hs : op.size = some s) (hr : (κ n).Returned c op (.nat b)) :
    ∃ vs, op.Stores b vs ∧ vs.length = s ∧ ∀ k v, vs[k]? = some v →
      ∃ t < n, (κ n).During c t ∧ (κ t).content (b + k) = none ∧ (κ (t + 1)).content (b + k) = some v := by
  have hI := h.inv hm (Nat.le_refl n)
  obtain ⟨vs, h1, h2, h3⟩ := hI.retPublish hr hs
  refine ⟨vs, h1, h2, fun k v hk => ?_⟩
  obtain ⟨t1, t2, ht⟩ := List.append_of_mem (h3 k v hk)
  have hok : specOk _ (Ev.publish c (b + k) v) := hI.inv.legal t1 _ t2 ht
  obtain ⟨t, h4, h5, h6, h7, h8, h9, h10⟩ := h.event_time hm ht
  refine ⟨t, h4, h7, ?_, ?_⟩
  · rw [h9]; exact hok.2.2
  · rw [h10, specAt_snoc]; simp [specNext]

/-- **C02.** As long as no call was made that may update the position, its value is the one stored. -/
theorem C02_stays (hm : InitMem m l) (h : Reach m l κ) {c : Cid} {op : Op α β} {s b : Nat}
    (hs : op.size = some s) (hr : κ.Returned c op (.nat b)) :
    ∃ vs, op.Stores b vs ∧ vs.length = s ∧ ∀ k v, vs[k]? = some v →
      (∀ c' op', κ.Called c' op' → ¬ op'.MayWrite (b + k)) → κ.content (b + k) = some v := by
  have hI := h.inv hm
  obtain ⟨vs, h1, h2, h3⟩ := hI.retPublish hr hs
  refine ⟨vs, h1, h2, fun k v hk hn => ?_⟩
  rw [hI.content_eq, hI.inv.spec_eq]
  exact hI.inv.legal.publish_keep (h3 k v hk) (hI.noModifies hn)

/-- **C02.** … and every `get_cloned` invoked after the growth call returned yields it. -/
theorem C02_read (hm : InitMem m l) (h : Reach m l κ) {c : Cid} {op : Op α β} {s b : Nat}
    (hs : op.size = some s) (hr : κ.Returned c op (.nat b)) :
    ∃ vs, op.Stores b vs ∧ vs.length = s ∧ ∀ k v, vs[k]? = some v →
      (∀ c' op', κ.Called c' op' → ¬ op'.MayWrite (b + k)) →
      ∀ d x, κ.Returned d (.getCloned (b + k)) x → κ.Before c d → x = .optVal (some v) := by
  have hI := h.inv hm
  obtain ⟨vs, h1, h2, h3⟩ := hI.retPublish hr hs
  refine ⟨vs, h1, h2, fun k v hk hn d x hd hb => ?_⟩
  obtain ⟨ct, st, et, fin, hc⟩ := hd
  obtain ⟨dd, hi⟩ := hI.returned hc
  obtain ⟨r1, r2, hr1, hr2, hb⟩ := hb
  rw [hc] at hr2
  simp only [Option.some.injEq] at hr2
  subst hr2
  obtain ⟨et', fin', he, hev⟩ := hI.before hr1 hc hb
  have hde := hI.dataEnd hr1 he
  have hpub : Ev.publish c (b + k) v ∈ st.trace := by
    have : Ev.publish c (b + k) v ∈ dataOf c κ.w.trace := mem_dataOf.2 ⟨h3 k v hk, rfl, rfl⟩
    rw [hde.1] at this
    exact hev.trace.subset (mem_dataOf.1 this).1
  rcases hi.out with ⟨v', rfl, hdd⟩ | ⟨-, -, hnone⟩
  · have hmem : Ev.read d (b + k) v' ∈ dataOf d κ.w.trace := by rw [hi.data, hdd]; simp
    obtain ⟨d1, d2, hd12⟩ := List.append_of_mem hmem
    obtain ⟨t1, t2, ht, h1t, -⟩ := dataOf_split hd12
    have hok : specOk (specAt (.ofList l) t1) (Ev.read d (b + k) v') := hI.inv.legal t1 _ t2 ht
    have hpre := hI.start_prefix (e := .read d (b + k) v') hc rfl ht
    have hleg : Legal (.ofList l) t1 := by
      have := hI.inv.legal; rw [ht] at this; exact this.prefix
    have := hleg.publish_keep (hpre.subset hpub) (fun e he => hI.noModifies hn e (by rw [ht]; simp [he]))
    simp only [specOk] at hok
    rw [this] at hok
    rw [Option.some.inj hok]
  · have := hi.invStart.legal.publish_pub hpub
    rw [← hi.invStart.spec_eq, hnone] at this
    cases this

section examples
open Demo

example : (Op.extend (.ofList [1, 2, 3]) : Op Nat Nat).Stores 2 [1, 2, 3] := ⟨rfl, ⟨[], rfl⟩⟩

/-- Followed by a read of position 3. -/
def Demo.growthRead : List (Choice Nat Nat) := growth ++ [.call (.getCloned 3)] ++ go 4 7

example : Possible [10, 20] 2 8 growthRead ∧
    (after [10, 20] 2 8 growthRead).Returned 2 (.extend (.ofList [1, 2, 3])) (.nat 2) ∧
    (after [10, 20] 2 8 growthRead).Returned 4 (.getCloned (2 + 1)) (.optVal (some 2)) ∧
    (after [10, 20] 2 8 growthRead).Before 2 4 :=
  ⟨by unfold Possible; rfl, returned_of rfl rfl, returned_of rfl rfl, before_of rfl rfl (by decide)⟩

end examples

/-! ## C03 -/

/-- **C03.** If a growth call was over before another one was invoked, all its positions are smaller. -/
theorem C03_real_time (hm : InitMem m l) (h : Reach m l κ) {c1 c2 : Cid} {op1 op2 : Op α β} {n1 n2 b1 b2 : Nat}
    (hs1 : op1.size = some n1) (hs2 : op2.size = some n2)
    (h1 : κ.Returned c1 op1 (.nat b1)) (h2 : κ.Returned c2 op2 (.nat b2)) (hb : κ.Before c1 c2) :
    b1 + n1 ≤ b2 := by
  have hI := h.inv hm
  obtain ⟨r1, r2, hr1, hr2, hb⟩ := hb
  have e1 := hI.retReserve h1 hs1
  have e2 := hI.retReserve h2 hs2
  obtain ⟨t1, t2, t3, ht⟩ := hI.before_split hr1 hr2 hb (mem_dataOf.2 ⟨e1, rfl, rfl⟩) (mem_dataOf.2 ⟨e2, rfl, rfl⟩)
  have := hI.inv.legal
  rw [ht] at this
  exact this.reserve_lt

section examples
open Demo

example : (after [10, 20] 2 8 growth).Returned 1 (.push 7) (.nat 5) ∧
    (after [10, 20] 2 8 growth).Returned 3 (.push 9) (.nat 6) ∧ (after [10, 20] 2 8 growth).Before 1 3 :=
  ⟨returned_of rfl rfl, returned_of rfl rfl, before_of rfl rfl (by decide)⟩

end examples

/-! ## C04 -/

/-- **C04.** Growth is linearizable. `log` lists the growth calls with the values they stored: every growth call
occurs exactly once, calls that do not overlap occur in the order in which they were made, each call returned the
initial length plus the number of values of the calls before it, and the content of the vector is the initial
content followed by the values in this order. -/
theorem C04_linearizable (hm : InitMem m l) (h : Reach m l κ)
    (hall : ∀ c op n, κ.Called c op → op.size = some n → ∃ x, κ.Returned c op x)
    (hupd : ∀ c op i, κ.Called c op → ¬ op.MayWrite i) :
    ∃ log : List (Cid × List α),
      (log.map Prod.fst).Nodup ∧
      (∀ c, c ∈ log.map Prod.fst ↔ ∃ op n, κ.Called c op ∧ op.size = some n) ∧
      (∀ c d, c ∈ log.map Prod.fst → d ∈ log.map Prod.fst → κ.Before c d →
        ∃ p q r, log.map Prod.fst = p ++ c :: (q ++ d :: r)) ∧
      (∀ p q c vs, log = p ++ (c, vs) :: q →
        ∃ op, κ.Returned c op (.nat (l.length + (p.flatMap Prod.snd).length)) ∧
          op.size = some vs.length ∧ op.Stores (l.length + (p.flatMap Prod.snd).length) vs) ∧
      (∀ i, κ.content i = (l ++ log.flatMap Prod.snd)[i]?) := by
  have hI := h.inv hm
  have hleg := hI.inv.legal
  -- values of each call
  have hv : ∀ c, ∃ vs, ∀ b n, Ev.reserve c b n ∈ κ.w.trace →
      ∃ op, κ.Returned c op (.nat b) ∧ op.size = some n ∧ op.Stores b vs ∧ vs.length = n ∧
        dataOf c κ.w.trace = .reserve c b n :: pubs c b vs := by
    intro c
    by_cases hex : ∃ b n, Ev.reserve c b n ∈ κ.w.trace
    · obtain ⟨b, n, he⟩ := hex
      obtain ⟨op, hcal, hsz⟩ := hI.reserve_call he
      obtain ⟨x, hx⟩ := hall c op n hcal hsz
      obtain ⟨b', vs, rfl, h2, h3, h4⟩ := hI.retGrowth hx hsz
      refine ⟨vs, fun b1 n1 he1 => ?_⟩
      have hmem : Ev.reserve c b1 n1 ∈ dataOf c κ.w.trace := mem_dataOf.2 ⟨he1, rfl, rfl⟩
      have hrv : (c, b1, n1) ∈ (dataOf c κ.w.trace).filterMap resv := mem_resv.2 hmem
      rw [h4, List.filterMap_cons, resv_reserve, pubs_resv] at hrv
      simp only [List.mem_singleton, Prod.mk.injEq] at hrv
      obtain ⟨-, rfl, rfl⟩ := hrv
      exact ⟨op, hx, hsz, h2, h3, h4⟩
    · exact ⟨[], fun b n he => absurd ⟨b, n, he⟩ hex⟩
  obtain ⟨vals, hvals⟩ := Classical.axiomOfChoice hv
  have hlen : ∀ r ∈ κ.w.trace.filterMap resv, (vals r.1).length = r.2.2 := by
    rintro ⟨c, b, n⟩ hr
    obtain ⟨op, -, -, -, h5, -⟩ := hvals c b n (mem_resv.1 hr)
    exact h5
  have hmem : ∀ c, c ∈ (κ.w.trace.filterMap resv).map (fun r => r.1) ↔ ∃ b n, Ev.reserve c b n ∈ κ.w.trace := by
    intro c
    simp only [List.mem_map]
    constructor
    · rintro ⟨⟨c', b, n⟩, hr, rfl⟩; exact ⟨b, n, mem_resv.1 hr⟩
    · rintro ⟨b, n, he⟩; exact ⟨(c, b, n), mem_resv.2 he, rfl⟩
  have hfst : ((κ.w.trace.filterMap resv).map fun r => (r.1, vals r.1)).map Prod.fst =
      (κ.w.trace.filterMap resv).map (fun r => r.1) := by
    simp [List.map_map, Function.comp_def]
  have hflat : ∀ (p : List (Cid × Nat × Nat)), (∀ r ∈ p, (vals r.1).length = r.2.2) →
      ((p.map fun r => (r.1, vals r.1)).flatMap Prod.snd).length = (p.map fun r => r.2.2).sum := by
    intro p hp
    rw [List.flatMap_map]
    exact length_flatMap_of _ _ p hp
  refine ⟨(κ.w.trace.filterMap resv).map fun r => (r.1, vals r.1), ?_, ?_, ?_, ?_, ?_⟩
  · rw [hfst, List.nodup_iff_count_le_one]
    intro c
    rw [count_resv]
    by_cases hex : ∃ b n, Ev.reserve c b n ∈ κ.w.trace
    · obtain ⟨b, n, he⟩ := hex
      obtain ⟨op, -, -, -, -, h4⟩ := hvals c b n he
      rw [h4, List.filterMap_cons, resv_reserve, pubs_resv]
      simp
    · have : (dataOf c κ.w.trace).filterMap resv = [] := by
        rw [List.eq_nil_iff_forall_not_mem]
        rintro ⟨c', b, n⟩ hr
        have h1 := mem_dataOf.1 (mem_resv.1 hr)
        have : c' = c := h1.2.2
        subst this
        exact hex ⟨b, n, h1.1⟩
      rw [this]; simp
  · intro c
    rw [hfst, hmem]
    constructor
    · rintro ⟨b, n, he⟩
      obtain ⟨op, h1, h2⟩ := hI.reserve_call he
      exact ⟨op, n, h1, h2⟩
    · rintro ⟨op, n, h1, h2⟩
      obtain ⟨x, hx⟩ := hall c op n h1 h2
      obtain ⟨b, vs, rfl, -⟩ := hI.retGrowth hx h2
      exact ⟨b, n, hI.retReserve hx h2⟩
  · intro c d hc hd hb
    rw [hfst] at hc hd ⊢
    obtain ⟨b1, n1, e1⟩ := (hmem c).1 hc
    obtain ⟨b2, n2, e2⟩ := (hmem d).1 hd
    obtain ⟨r1, r2, hr1, hr2, hb⟩ := hb
    obtain ⟨t1, t2, t3, ht⟩ :=
      hI.before_split hr1 hr2 hb (mem_dataOf.2 ⟨e1, rfl, rfl⟩) (mem_dataOf.2 ⟨e2, rfl, rfl⟩)
    rw [ht]
    simp only [List.filterMap_append, List.filterMap_cons, resv_reserve, List.map_append, List.map_cons]
    exact ⟨_, _, _, rfl⟩
  · intro p q c vs hpq
    obtain ⟨p', q', hpq', hp', hq'⟩ := List.map_eq_append_iff.1 hpq
    obtain ⟨⟨c', b, n⟩, q'', rfl, hx, hq''⟩ := List.map_eq_cons_iff.1 hq'
    simp only [Prod.mk.injEq] at hx
    obtain ⟨rfl, rfl⟩ := hx
    have hb := hleg.resv_eq hpq'
    obtain ⟨op, h1, h2, h3, h4, h5⟩ := hvals c' b n (mem_resv.1 (by rw [hpq']; simp))
    have hpl : (p.flatMap Prod.snd).length = (p'.map fun r => r.2.2).sum := by
      rw [← hp']
      exact hflat p' (fun r hr => hlen r (by rw [hpq']; simp [hr]))
    rw [hpl, ← hb]
    exact ⟨op, h1, by rw [h4]; exact h2, h3⟩
  · intro i
    rw [hI.content_eq, hI.inv.spec_eq]
    have htot := hleg.len_eq
    have hfl := hflat _ hlen
    by_cases hil : i < l.length
    · rw [List.getElem?_append_left hil]
      have h0 : (SpecSt.ofList l).val i = some l[i] := by simp [SpecSt.ofList, hil]
      rw [specAt_keep hleg h0 (hI.noModifies fun c op hc => hupd c op i hc)]
      simp [hil]
    · by_cases hin : i < (specAt (.ofList l) κ.w.trace).len
      · obtain ⟨b, n, he, hbi⟩ := hleg.owner_reserved hin (by omega)
        generalize (specAt (.ofList l) κ.w.trace).owner i = c at he
        obtain ⟨p, q, hpq⟩ := List.append_of_mem (mem_resv.2 he)
        have hb := hleg.resv_eq hpq
        obtain ⟨op, h1, h2, h3, h4, h5⟩ := hvals c b n he
        have hk : i - b < (vals c).length := by omega
        have hpub : Ev.publish c (b + (i - b)) (vals c)[i - b] ∈ κ.w.trace := by
          have : Ev.publish c (b + (i - b)) (vals c)[i - b] ∈ dataOf c κ.w.trace := by
            rw [h5]; exact List.mem_cons_of_mem _ (mem_pubs (by simp [hk]))
          exact (mem_dataOf.1 this).1
        rw [show b + (i - b) = i by omega] at hpub
        rw [hleg.publish_keep hpub (hI.noModifies fun c op hc => hupd c op i hc)]
        have hpl := hflat p (fun r hr => hlen r (by rw [hpq]; simp [hr]))
        rw [List.getElem?_append_right (by omega), hpq, List.map_append, List.map_cons]
        rw [show i - l.length = ((p.map fun r => (r.1, vals r.1)).flatMap Prod.snd).length + (i - b) by omega]
        rw [getElem?_flatMap_split Prod.snd _ _ _ _ (by exact hk)]
        simp [hk]
      · rw [List.getElem?_eq_none (by rw [List.length_append]; omega)]
        rcases hv : (specAt (SpecSt.ofList l) κ.w.trace).val i with _ | v
        · rfl
        · have := hI.inv.pub_len i (by rw [hI.inv.spec_eq, hv]; rfl)
          rw [hI.inv.spec_eq] at this
          exact absurd this hin

section examples
open Demo

/-- In this execution the order of the calls is 2, 1, 3. -/
example : let κ := after [10, 20] 2 8 growth
    κ.Returned 2 (.extend (.ofList [1, 2, 3])) (.nat 2) ∧ κ.Returned 1 (.push 7) (.nat 5) ∧
    κ.Returned 3 (.push 9) (.nat 6) ∧ κ.calls 4 = none ∧
    (List.range 8).map κ.content = [some 10, some 20, some 1, some 2, some 3, some 7, some 9, none] :=
  ⟨returned_of rfl rfl, returned_of rfl rfl, returned_of rfl rfl, rfl, rfl⟩

end examples

/-! ## C05 -/

/-- **C05.** `push_for_idx(f)` returns `i` and stores `f(i)` at position `i`. -/
theorem C05_push_for_idx {n : Nat} {κ : Nat → Cfg α β} (hm : InitMem m l) (h : Exec m l n κ) {c : Cid}
    {f : Nat → Option α} {x : Ret α β} (hr : (κ n).Returned c (.pushForIdx f) x) :
    ∃ i v, x = .nat i ∧ f i = some v ∧
      ∃ t < n, (κ n).During c t ∧ (κ t).content i = none ∧ (κ (t + 1)).content i = some v := by
  obtain ⟨b, vs, rfl, -⟩ := (h.inv hm (Nat.le_refl n)).retGrowth hr rfl
  obtain ⟨vs, ⟨v, hv, rfl⟩, -, h3⟩ := C02_received hm h (op := .pushForIdx f) rfl hr
  exact ⟨b, v, rfl, hv, h3 0 v rfl⟩

/-- **C05.** `extend_for_idx(f, k)` returns `b` and stores the first `k` items of `f(b)` at `b, b+1, …`. -/
theorem C05_extend_for_idx {n : Nat} {κ : Nat → Cfg α β} (hm : InitMem m l) (h : Exec m l n κ) {c : Cid}
    {f : Nat → Option (Iter α)} {k : Nat} {x : Ret α β} (hr : (κ n).Returned c (.extendForIdx f k) x) :
    ∃ b it, x = .nat b ∧ f b = some it ∧ ∀ j, j < k → ∃ v, it.items[j]? = some (some v) ∧
      ∃ t < n, (κ n).During c t ∧ (κ t).content (b + j) = none ∧ (κ (t + 1)).content (b + j) = some v := by
  obtain ⟨b, vs, rfl, -⟩ := (h.inv hm (Nat.le_refl n)).retGrowth hr rfl
  obtain ⟨vs, ⟨it, hit, hlen, hpre⟩, -, h3⟩ := C02_received hm h (op := .extendForIdx f k) rfl hr
  refine ⟨b, it, rfl, hit, fun j hj => ?_⟩
  refine ⟨vs[j], ?_, h3 j vs[j] (by simp [hlen, hj])⟩
  obtain ⟨rest, hrest⟩ := hpre
  rw [← hrest, List.getElem?_append_left (by simp [hlen, hj])]
  simp [hlen, hj]

section examples
open Demo

/-- `push_for_idx(|i| 100 + i)` and `extend_for_idx(|b| [b, b + 1], 2)`, interleaved. -/
def Demo.forIdx : List (Choice Nat Nat) :=
  [.call (.pushForIdx fun i => some (100 + i)), .call (.extendForIdx (fun b => some (.ofList [b, b + 1])) 2)] ++
  go 1 1 ++ go 2 1 ++ go 1 9 ++ go 2 11

example : Possible [10] 1 8 forIdx ∧ (after [10] 1 8 forIdx).result 1 = some (.nat 1) ∧
    (after [10] 1 8 forIdx).result 2 = some (.nat 2) ∧
    (List.range 5).map (after [10] 1 8 forIdx).content = [some 10, some 101, some 2, some 3, none] :=
  ⟨by unfold Possible; rfl, rfl, rfl, rfl⟩

end examples

end Verif
