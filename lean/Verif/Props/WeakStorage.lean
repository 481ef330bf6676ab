import Verif.Weak.Storage
import Verif.Props.Weak
import Verif.Props.DemoWeakInf

/-!
# Growing the storage under weak memory: C07
-/

namespace Verif

open Weak

variable {α β : Type} {m : Mem α} {l : List α} {κ : Weak.Cfg α β}

/-- **C07 under weak memory.** At most one call is growing the storage. -/
theorem C07_weak_exclusive (hm : InitMem m l) (h : Weak.Reach m κ) (hd : κ.Disciplined) {c d : Cid} {a b : Act α}
    (hc : κ.AboutTo c a) (hd' : κ.AboutTo d b) (ga : a.Grows) (gb : b.Grows) : c = d := by
  obtain ⟨K, K0, hw⟩ := winv_of hm h hd
  rcases hr : κ.mem.cap.getLast? with _ | r
  · exact absurd (List.getLast?_eq_none_iff.1 hr) hw.g.cap_ne
  · exact hw.g.disjR c d _ (hw.grows_owns hc ga hr) (hw.grows_owns hd' gb hr)

/-- **C07 under weak memory.** A call allocates only behind the newest capacity, which is all that has been allocated until then, and only
within the maximum capacity. -/
theorem C07_weak_alloc (hm : InitMem m l) (h : Weak.Reach m κ) (hd : κ.Disciplined) {c : Cid} {k : Nat}
    (hc : κ.AboutTo c (.growAlloc k)) : κ.NewestCap κ.mem.alloc ∧ κ.mem.alloc < k ∧ k ≤ κ.mem.maxCap := by
  obtain ⟨K, K0, hw⟩ := winv_of hm h hd
  rcases hr : κ.mem.cap.getLast? with _ | r
  · exact absurd (List.getLast?_eq_none_iff.1 hr) hw.g.cap_ne
  have hR := hw.grows_owns hc trivial hr
  obtain ⟨hG, hk, x, hx, hu, hgr, hlt⟩ := hw.pre_next hc
  have hno : ∀ d, ¬ (K d).G := by
    intro d hdG
    obtain ⟨⟨q, hq, hgr, -⟩, -⟩ := (hw.k d).g hdG
    rw [hr] at hq; cases hq
    have := hw.g.disjR d c _ ((hw.k d).gr_r _ hgr) hR
    subst this
    exact hG hdG
  have ha := (hw.g.cap_last hno r hr).1
  refine ⟨⟨r, hr, ha⟩, ?_, hk⟩
  rw [← ha, hw.alloc_newest hx hu hgr hr]
  exact hlt

/-- **C07 under weak memory.** The capacities that are ever published do not decrease in the order of their publication, they never exceed what
is allocated, and this does not exceed the maximum capacity. -/
theorem C07_weak_capacity (hm : InitMem m l) (h : Weak.Reach m κ) (hd : κ.Disciplined) :
    (∀ (s t : Nat) p q, s ≤ t → κ.mem.cap[s]? = some p → κ.mem.cap[t]? = some q → p.val ≤ q.val ∧ q.val ≤ κ.mem.alloc) ∧
      κ.mem.alloc ≤ κ.mem.maxCap := by
  obtain ⟨K, K0, hw⟩ := winv_of hm h hd
  refine ⟨fun s t p q hst hp hq => ⟨hw.g.cap_mono s t p q hst hp hq, ?_⟩, κ.mem.pol.good_le hw.g.good⟩
  refine Nat.le_trans (hw.g.cap_mono.last hq) ?_
  rcases hr : κ.mem.cap.getLast? with _ | r
  · exact absurd (List.getLast?_eq_none_iff.1 hr) hw.g.cap_ne
  have hl : lastVal κ.mem.cap = r.val := by unfold lastVal; rw [hr]
  rw [hl]
  by_cases hG : ∃ d, (K d).G
  · obtain ⟨d, hdG⟩ := hG
    obtain ⟨⟨q, hq, -, hlt⟩, -⟩ := (hw.k d).g hdG
    rw [hr] at hq; cases hq
    exact Nat.le_of_lt hlt
  · exact Nat.le_of_eq (hw.g.cap_last (fun d hdG => hG ⟨d, hdG⟩) r hr).1

/-- **C07 under weak memory.** A call touches only positions that are allocated, below the newest capacity, and whose allocation happens before the
access. -/
theorem C07_weak_touches (hm : InitMem m l) (h : Weak.Reach m κ) (hd : κ.Disciplined) {c : Cid} {a : Act α} (hc : κ.AboutTo c a) {i : Nat}
    (ht : a.Touches i) : κ.mem.usable (κ.viewOf c) i = true ∧ ∀ k, κ.NewestCap k → i < k := by
  obtain ⟨K, K0, hw⟩ := winv_of hm h hd
  have hp := hw.pre_next hc
  have hA : (K c).A i := by
    cases a <;> first | exact ht.elim | skip
    · exact (show i = _ from ht) ▸ hp
    · exact (show i = _ from ht) ▸ hp.1
    · exact (show i = _ from ht) ▸ hp.1
    · exact (show i = _ from ht) ▸ hp.1
    · exact (show i = _ from ht) ▸ hp.1
    · rcases ht with rfl | rfl
      · exact hp.1
      · exact hp.2.1
  obtain ⟨h1, h2⟩ := (hw.k c).a i hA
  refine ⟨h1, ?_⟩
  rintro k ⟨r, hr, rfl⟩
  have := h2.1
  unfold lastVal at this
  rw [hr] at this
  exact this

/-- **C07 under weak memory.** A capacity that is reported is at most the maximum capacity. It is at least every capacity that was reported to a call
that happens before, and it covers the positions of growth calls that happen before. -/
theorem C07_weak_capacity_calls (hm : InitMem m l) (h : Weak.Reach m κ) (hd : κ.Disciplined) {d : Cid} {a : Nat}
    (hr : κ.Returned d .capacity (.nat a)) : a ≤ κ.mem.maxCap ∧ l.length ≤ a ∧
      (∀ c a', κ.HB c d → κ.Returned c .capacity (.nat a') → a' ≤ a) ∧ ∀ c i, κ.HB c d → κ.Added c i → i < a := by
  obtain ⟨K, K0, hw⟩ := winv_of hm h hd
  obtain ⟨b, hb, h1, h2⟩ := (hw.done hr).cap rfl
  cases hb
  have bound : ∀ b, (∀ i, i < b → i < κ.mem.maxCap) → b ≤ κ.mem.maxCap := fun b hb => Nat.le_of_not_lt fun hlt => Nat.lt_irrefl _ (hb _ hlt)
  obtain ⟨r, hr', -⟩ := id hr
  refine ⟨bound a fun i hi => ?_, ?_, fun c a' hcd hc => ?_, ?_⟩
  · have h3 := ((hw.k d).a i (h2 i hi)).1
    unfold WMem.usable at h3
    rw [Bool.and_eq_true, decide_eq_true_eq] at h3
    exact Nat.lt_of_lt_of_le h3.1 (κ.mem.pol.good_le hw.g.good)
  · refine Nat.le_of_not_lt fun hlt => Nat.lt_irrefl _ (h1 a ((hw.base d r hr').a a (hw.zero a hlt).2.1))
  · obtain ⟨b', hb', -, h4⟩ := (hw.done hc).cap rfl
    cases hb'
    exact Nat.le_of_not_lt fun hlt => Nat.lt_irrefl _ (h1 a ((hw.hb_le hcd).2.a a (h4 a hlt)))
  · rintro c i hcd ⟨op, n, b, hc, hn, hi1, hi2⟩
    obtain ⟨b', hb', -, -, -, h4⟩ := (hw.done hc).grow n hn
    cases hb'
    exact h1 i ((hw.hb_le hcd).2.a i (h4 i hi1 hi2).2.2.1)

section examples

namespace Weak.Show

open Verif.Demo (mem)

/-- `[10, 20]` with capacity 2: calls 1 and 2 push and have received the positions 2 and 3; call 1 has checked the capacity, and call 2 waits until
its position becomes the next one. -/
def beforeAlloc : List (Choice Nat Nat) := [.call (.push 30) [], .call (.push 40) []] ++ go 1 1 ++ go 2 1 ++ go 1 4 ++ go 2 4

/-- Call 1 has allocated and not yet published the new capacity. -/
def beforePublish : List (Choice Nat Nat) := beforeAlloc ++ go 1 1

/-- Call 1 has published the new capacity. -/
def beforeWrite : List (Choice Nat Nat) := beforePublish ++ go 1 1

theorem beforeWrite_possible : Possible [10, 20] 2 8 beforeWrite := by unfold Possible; rfl

theorem beforePublish_possible : Possible [10, 20] 2 8 beforePublish := by unfold Possible; rfl

theorem beforeAlloc_possible : Possible [10, 20] 2 8 beforeAlloc := by unfold Possible; rfl

theorem pushes_disciplined {chs : List (Choice Nat Nat)} (h : Possible [10, 20] 2 8 chs)
    (ho : ops (after [10, 20] 2 8 chs) = [.push 30, .push 40]) : (after [10, 20] 2 8 chs).Disciplined := by
  refine disciplined_of (reach_after h) ?_
  rw [ho]
  rintro op hop e rfl
  simp at hop

end Weak.Show

open Weak.Show in
/-- The hypotheses of `C07_weak_alloc` are met by call 1. -/
example : (after [10, 20] 2 8 beforeAlloc).AboutTo 1 (.growAlloc 3) ∧ (after [10, 20] 2 8 beforeAlloc).mem.alloc = 2 ∧
    (after [10, 20] 2 8 beforeAlloc).NewestCap 2 := by
  have ha : (after [10, 20] 2 8 beforeAlloc).AboutTo 1 (.growAlloc 3) := ⟨_, _, _, rfl, rfl⟩
  exact ⟨ha, rfl, (C07_weak_alloc Show.init (reach_after beforeAlloc_possible) (pushes_disciplined beforeAlloc_possible rfl) ha).1⟩

open Weak.Show in
/-- The hypotheses of `C07_weak_exclusive` are met: while call 1 is between allocation and publication, call 2, which has to grow the storage, too,
is not growing it. -/
example : (after [10, 20] 2 8 beforePublish).Running 2 (.push 40) ∧
    ∀ k, ¬ (after [10, 20] 2 8 beforePublish).AboutTo 2 (.growAlloc k) := by
  refine ⟨⟨_, _, rfl, rfl, rfl⟩, fun k h2 => ?_⟩
  have h1 : ∃ o, (after [10, 20] 2 8 beforePublish).AboutTo 1 (.growPublish o) := ⟨_, _, _, _, rfl, rfl⟩
  obtain ⟨o, h1⟩ := h1
  exact absurd (C07_weak_exclusive Show.init (reach_after beforePublish_possible) (pushes_disciplined beforePublish_possible rfl) h1 h2
    trivial trivial) (by decide)

open Weak.Show in
/-- The hypotheses of `C07_weak_touches` are met: call 1 is about to store its value. The capacities published so far are 2 and 3. -/
example : (after [10, 20] 2 8 beforeWrite).AboutTo 1 (.valWrite 2 30) ∧ (after [10, 20] 2 8 beforeWrite).mem.cap.map Msg.val = [2, 3] ∧
    ∀ k, (after [10, 20] 2 8 beforeWrite).NewestCap k → 2 < k := by
  have hw : (after [10, 20] 2 8 beforeWrite).AboutTo 1 (.valWrite 2 30) := ⟨_, _, _, rfl, rfl⟩
  exact ⟨hw, rfl, (C07_weak_touches Show.init (reach_after beforeWrite_possible) (pushes_disciplined beforeWrite_possible rfl) hw rfl).2⟩

open Weak.Show in
/-- The hypotheses of `C07_weak_capacity` are met. -/
example : (after [10, 20] 2 8 beforeWrite).mem.alloc ≤ 8 :=
  (C07_weak_capacity Show.init (reach_after beforeWrite_possible) (pushes_disciplined beforeWrite_possible rfl)).2

namespace Weak.Show

/-- `[10, 20]` with capacity 2: call 1 asks for the capacity, call 2 pushes 30, call 3 happens after both and asks for the capacity again. -/
def capacities : List (Choice Nat Nat) :=
  [.call .capacity []] ++ go 1 2 ++ [.call (.push 30) []] ++ go 2 10 ++ [.call .capacity [1, 2]] ++ go 3 2

theorem capacities_possible : Possible [10, 20] 2 8 capacities := by unfold Possible; rfl

/-- The end of the execution. -/
def υk : Cfg Nat Nat := after [10, 20] 2 8 capacities

theorem υk_disciplined : υk.Disciplined := by
  refine disciplined_of (reach_after capacities_possible) ?_
  have : ops υk = [.capacity, .push 30, .capacity] := rfl
  rw [this]
  rintro op hop e rfl
  simp at hop

end Weak.Show

open Weak.Show in
/-- The hypotheses of `C07_weak_capacity_calls` are met. -/
example : υk.Returned 1 .capacity (.nat 2) ∧ υk.Returned 3 .capacity (.nat 3) ∧ υk.HB 1 3 ∧ υk.HB 2 3 ∧ υk.Added 2 2 ∧
    (2 : Nat) ≤ 3 ∧ (2 : Nat) < 3 := by
  have h1 : υk.Returned 1 .capacity (.nat 2) := Cfg.returned_of rfl rfl
  have h3 : υk.Returned 3 .capacity (.nat 3) := Cfg.returned_of rfl rfl
  have b1 : υk.HB 1 3 := Cfg.hb_of (H := [1, 2]) rfl (by decide)
  have b2 : υk.HB 2 3 := Cfg.hb_of (H := [1, 2]) rfl (by decide)
  have ha : υk.Added 2 2 := ⟨.push 30, 1, 2, Cfg.returned_of rfl rfl, rfl, by decide, by decide⟩
  have hk := C07_weak_capacity_calls Show.init (reach_after capacities_possible) υk_disciplined h3
  exact ⟨h1, h3, b1, b2, ha, hk.2.2.1 1 2 b1 h1, hk.2.2.2 2 2 b2 ha⟩

end examples

end Verif
