import Verif.Weak.Stalled
import Verif.Weak.SwapHangs
import Verif.Weak.SpecLock
import Verif.Props.Weak
import Verif.Props.WeakIsolation

/-!
# Closures that panic inside an element, under weak memory: C25
-/

namespace Verif

open Weak

variable {α β : Type} {m : Mem α} {l : List α} {κ : Weak.Cfg α β}

/-- **C25 under weak memory.** An element that is locked is in use by a call that is still running. In particular a call that panicked does not
leave it locked. -/
theorem C25_weak_holder_runs (hm : InitMem m l) (h : Weak.Reach m κ) (hd : κ.Disciplined) {i : Nat} (hl : κ.Newest i .RESERVED) :
    ∃ d op, κ.Running d op ∧ op.Uses i ∧ ∀ op' k, ¬ κ.Panicked d op' k := by
  obtain ⟨K, K0, hW, hP, hU⟩ := upinv (D := ⟨fun e => ∃ c, κ.Called c (.deref e), False, fun _ _ => True⟩)
    hm h (fun c op hc => ⟨fun i ⟨c', hc'⟩ => hd c' i hc' c op hc, fun _ he => ⟨c, he ▸ hc⟩, fun h => h.elim, fun _ _ _ => trivial⟩)
  obtain ⟨d, hdl⟩ := hP.held i hl
  obtain ⟨op, ⟨q, p, hq, ho, hp⟩⟩ := holder_running hW hP hdl
  obtain ⟨op2, ⟨q', hq', ho'⟩, hu⟩ := hU.l d i hdl
  rw [hq] at hq'; cases hq'
  refine ⟨d, op, ⟨q, p, hq, ho, hp⟩, by rw [← ho, ho']; exact hu, ?_⟩
  rintro op' k ⟨r, hr, -, hs⟩
  rw [hq] at hr; cases hr
  rw [hp] at hs; cases hs

/-- **C25 under weak memory.** When a call on element `i` has panicked (its closure, say), the element has a value, and unless other calls are
using it, it is not locked: a later call can lock it at once. The same holds at every later moment. -/
theorem C25_weak_released (hm : InitMem m l) (h : Weak.Reach m κ) (hd : κ.Disciplined) {c : Cid} {op : Op α β} {k : PanicKind}
    (hp : κ.Panicked c op k) {i : Nat} (hi : κ.Counted l.length c i) :
    (κ.mem.val i).isSome ∧ ((∀ d op', κ.Running d op' → ¬ op'.Uses i) → κ.Newest i .SOME) := by
  obtain ⟨K, K0, hw⟩ := winv_of hm h hd
  obtain ⟨r, hr, -⟩ := hp
  obtain ⟨⟨q, hq, hn⟩, -⟩ := (hw.k c).v i (hw.counted_v hr hi)
  refine ⟨hw.g.st_val i q hq hn, fun hno => ⟨q, hq, ?_⟩⟩
  cases hv : q.val with
  | NONE => exact absurd hv hn
  | SOME => rfl
  | RESERVED =>
    obtain ⟨d, op', h1, h2, -⟩ := C25_weak_holder_runs hm h hd ⟨q, hq, hv⟩
    exact absurd h2 (hno d op' h1)

/-- **C25 under weak memory.** Later operations work: a method of element `i` never has to wait while no other running call uses the element,
whatever calls panicked before (provided nobody swaps the element with itself, which hangs, `C21_weak_self_hangs`). -/
theorem C25_weak_not_blocked (hm : InitMem m l) (h : Weak.Reach m κ) (hd : κ.Disciplined) {c : Cid} {op : Op α β} {i : Nat}
    (hop : op.MethodOf i) (hc : κ.Called c op) (hno : ∀ d op', d ≠ c → κ.Running d op' → ¬ op'.Uses i)
    (hs : ∀ d op', κ.Called d op' → ¬ op'.SwapsWith i i) : ¬ κ.Blocked c := by
  intro hb
  have hu : op.size = none ∧ ∀ j, op.Uses j → j = i := by
    cases op <;> first | exact hop.elim | exact ⟨rfl, fun j hj => hj.trans hop.symm⟩
  rcases C52_weak_waits hm h hd hc hb with ⟨sz, hsz⟩ | ⟨j, d, op', h1, h2, h3, -, h4⟩
  · rw [hu.1] at hsz; cases hsz
  · have := hu.2 j h1
    subst this
    by_cases hdc : d = c
    · obtain ⟨c', op'', h5, h6⟩ := h4 hdc
      exact hs c' op'' h5 h6
    · exact hno d op' hdc h2 h3

section examples

namespace Weak.Show

open Verif.Demo (mem)

/-- `[10, 20]` with capacity 2: call 1 looks up element 0. The closure given to call 2 (`update`) writes 11 and panics. -/
def panicInside : List (Choice Nat Nat) :=
  [.call (.get 0) []] ++ go 1 6 ++ [.call (.elUpdate (fun v => (v + 1, false)) 0) [1]] ++ go 2 5

theorem panicInside_possible : Possible [10, 20] 2 8 panicInside := by unfold Possible; rfl

/-- After the panic. -/
def υp : Cfg Nat Nat := after [10, 20] 2 8 panicInside

theorem υp_reach : Reach (mem [10, 20] 2 8) υp := reach_after panicInside_possible

theorem υp_disciplined : υp.Disciplined := by
  refine disciplined_of υp_reach ?_
  have : ops υp = [.get 0, .elUpdate (fun v => (v + 1, false)) 0] := rfl
  rw [this]
  rintro op hop e rfl
  simp at hop

end Weak.Show

open Weak.Show in
/-- The hypotheses of `C25_weak_released` are met. -/
example : υp.Panicked 2 (.elUpdate (fun v => (v + 1, false)) 0) .userCode ∧ υp.mem.val 0 = some 11 ∧ υp.Newest 0 .SOME := by
  have hp : υp.Panicked 2 (.elUpdate (fun v => (v + 1, false)) 0) .userCode := Cfg.panicked_of rfl rfl
  refine ⟨hp, rfl, (C25_weak_released Show.init υp_reach υp_disciplined hp (i := 0) (.inl (by decide))).2 ?_⟩
  rintro d op ⟨r, p, hr, -, hs⟩
  have hlt : d < 3 := Nat.lt_of_not_le fun hge => by rw [υp_reach.new d hge] at hr; cases hr
  have hst : υp.at' d = some (.running p) := by rw [Cfg.at_some (κ := υp) hr, hs]
  match d, hlt with
  | 0, _ => cases hst
  | 1, _ => cases hst
  | 2, _ => cases hst

namespace Weak.Show

open Verif.Demo (mem)

/-- Then call 3 replaces the value; it has just locked the element. -/
def afterPanicInside : List (Choice Nat Nat) := panicInside ++ [.call (.elReplace 0 5) [1]] ++ go 3 2

theorem afterPanicInside_possible : Possible [10, 20] 2 8 afterPanicInside := by unfold Possible; rfl

/-- While call 3 has locked the element. -/
def υq : Cfg Nat Nat := after [10, 20] 2 8 afterPanicInside

theorem υq_reach : Reach (mem [10, 20] 2 8) υq := reach_after afterPanicInside_possible

theorem υq_only : υq.Only fun op => op = .get 0 ∨ op = .elUpdate (fun v => (v + 1, false)) 0 ∨ op = .elReplace 0 5 := by
  refine only_of υq_reach fun op hop => ?_
  have : ops υq = [.get 0, .elUpdate (fun v => (v + 1, false)) 0, .elReplace 0 5] := rfl
  rw [this] at hop
  simpa using hop

theorem υq_disciplined : υq.Disciplined := by
  intro c e hc
  rcases υq_only c _ hc with h | h | h <;> cases h

end Weak.Show

open Weak.Show in
/-- The hypotheses of `C25_weak_holder_runs` are met: element 0 is locked, by call 3. -/
example : υq.Newest 0 .RESERVED ∧ υq.Panicked 2 (.elUpdate (fun v => (v + 1, false)) 0) .userCode ∧ υq.Running 3 (.elReplace 0 5) ∧
    ∃ d op, υq.Running d op ∧ op.Uses 0 ∧ ∀ op' k, ¬ υq.Panicked d op' k :=
  have hl : υq.Newest 0 .RESERVED := ⟨_, rfl, rfl⟩
  ⟨hl, Cfg.panicked_of rfl rfl, ⟨_, _, rfl, rfl, rfl⟩, C25_weak_holder_runs Show.init υq_reach υq_disciplined hl⟩

open Weak.Show in
/-- The hypotheses of `C25_weak_not_blocked` are met by call 3. -/
example : ¬ υq.Blocked 3 := by
  refine C25_weak_not_blocked Show.init υq_reach υq_disciplined (op := .elReplace 0 5) (i := 0) rfl ⟨_, rfl, rfl⟩ ?_ ?_
  · rintro d op hne ⟨r, p, hr, -, hs⟩
    have hlt : d < 4 := Nat.lt_of_not_le fun hge => by rw [υq_reach.new d hge] at hr; cases hr
    have hst : υq.at' d = some (.running p) := by rw [Cfg.at_some (κ := υq) hr, hs]
    match d, hlt with
    | 0, _ => cases hst
    | 1, _ => cases hst
    | 2, _ => cases hst
    | 3, _ => exact absurd rfl hne
  · intro d op hc hs
    rcases υq_only d op hc with rfl | rfl | rfl <;> exact hs.elim

end examples

end Verif
