import Verif.Weak.OwnElement
import Verif.Props.Weak
import Verif.Props.DemoWeakInf

/-!
# Elements are locked independently, under weak memory: C52

Which elements a call locks and waits for, and whom a call that stays inside an element (code of the caller in the closure of `map` or
`update`, say) can hinder.
-/

namespace Verif

open Weak

variable {α β : Type} {m : Mem α} {l : List α} {κ : Weak.Cfg α β}

/-- **C52 under weak memory.** A call locks only elements that it uses. -/
theorem C52_weak_locks_used (h : Weak.Reach m κ) {c : Cid} {r : Weak.Rec α β} {i : Nat} {e s : CState} {o f : MOrd}
    {again : (Act.stCas i e s o f : Act α).Resp → Bool} {k : (Act.stCas i e s o f : Act α).Resp → Prog α (Ret α β)}
    (hc : κ.calls c = some r) (hr : r.status = .running (.step (.stCas i e s o f) again k)) : r.op.Uses i :=
  (h.locksIn hc hr).1 i e s o f rfl

/-- **C52 under weak memory.** A call that waits is a growth call, or it waits for an element that it uses, that is locked in the newest
message of its state, and that some running call uses, too. This is another call, unless somebody swaps an element with itself. -/
theorem C52_weak_waits (hm : InitMem m l) (h : Weak.Reach m κ) (hd : κ.Disciplined) {c : Cid} {op : Op α β} (hc : κ.Called c op)
    (hb : κ.Blocked c) : (∃ sz, op.size = some sz) ∨ ∃ i d op', op.Uses i ∧ κ.Running d op' ∧ op'.Uses i ∧
      (∃ r, (κ.mem.st i).getLast? = some r ∧ r.val = .RESERVED) ∧ (d = c → ∃ c' op'', κ.Called c' op'' ∧ op''.SwapsWith i i) := by
  obtain ⟨K, K0, hW, hP, hU⟩ := upinv (D := ⟨fun e => ∃ c, κ.Called c (.deref e), False, fun i j => ∃ c' op'', κ.Called c' op'' ∧ op''.SwapsWith i j⟩)
    hm h (fun c op hc => ⟨fun i ⟨c', hc'⟩ => hd c' i hc' c op hc, fun _ he => ⟨c, he ▸ hc⟩, fun h => h.elim, fun i j hs => ⟨c, op, hc, hs⟩⟩)
  obtain ⟨r, a, again, k, hr, hs, hw⟩ := blocked_waits hW (binv h) hb
  have hop : r.op = op := by
    obtain ⟨r', hr', ho⟩ := hc
    rw [hr] at hr'; cases hr'; exact ho
  cases a with
  | capLoad o =>
    obtain ⟨⟨i, hi⟩, -⟩ := hw
    obtain ⟨op', sz, ⟨r', hr', ho⟩, hsz⟩ := hU.r c i hi
    rw [hr] at hr'; cases hr'
    exact .inl ⟨sz, by rw [← hop, ho]; exact hsz⟩
  | stCas i e s ok fail =>
    obtain ⟨hl, -, -, hnest⟩ := hw
    obtain ⟨d, hdl⟩ := hP.held i hl
    obtain ⟨op', ⟨q, p, hq, ho, hp⟩⟩ := holder_running hW hP hdl
    obtain ⟨op2, ⟨q', hq', ho'⟩, hu⟩ := hU.l d i hdl
    rw [hq] at hq'; cases hq'
    refine .inr ⟨i, d, op', hop ▸ C52_weak_locks_used h hr hs, ⟨q, p, hq, ho, hp⟩, by rw [← ho, ho']; exact hu, hl, ?_⟩
    rintro rfl
    exact hnest i hdl
  | _ => exact hw.elim

/-- **C52 under weak memory.** Let the calls in `S` be calls that do not grow the vector and that use only elements of `E`. They may be scheduled
in any way, in particular they need not get any further (because the closure of `map` or `update` never returns, say). If no other call makes a
blocking `swap(i, j)` with `j` in `E` and `i` not in `E`, then every other call that uses no element of `E` ends: growth calls, calls that lock
no elements, and all calls on the other elements. (Scheduler and memory are strongly fair for the calls outside `S`, and their blocking swaps
name the smaller index first.) -/
theorem C52_weak_element {κ : Nat → Weak.Cfg α β} (hm : InitMem m l) (h : Weak.InfExec m κ) {S : Cid → Prop} {E : Nat → Prop}
    (hf : Weak.StronglyFairExcept S κ) (hd : ∀ t, (κ t).Disciplined) {mx : Nat} (hg : ∀ t, (κ t).GrowthIntact mx)
    (hS : ∀ t c op, S c → (κ t).Called c op → op.size = none ∧ ∀ i, op.Uses i → E i)
    (hE : ∀ t c op i j, ¬ S c → (κ t).Called c op → op.SwapsWith i j → E j → E i)
    (hsw : ∀ t c op, ¬ S c → (κ t).Called c op → op.SwapsUp)
    {t : Nat} {c : Cid} {op : Op α β} (hc : (κ t).Called c op) (hcS : ¬ S c) (hu : ∀ i, op.Uses i → ¬ E i) :
    ∃ t', t ≤ t' ∧ (κ t').Over c op := by
  refine Classical.byContradiction fun hno => ?_
  let D : Mode := ⟨fun e => ∃ s d, (κ s).Called d (.deref e), False, fun i j => ∃ s d op, (κ s).Called d op ∧ op.SwapsWith i j⟩
  have ho : ∀ t c op, (κ t).Called c op → Allowed D op := by
    intro t c op hc
    refine ⟨fun i ⟨s, d, hd'⟩ => ?_, fun e he => ⟨t, c, he ▸ hc⟩, fun h => h.elim, fun i j hij => ⟨t, c, op, hc, hij⟩⟩
    exact hd (max s t) d i (h.called (Nat.le_max_left _ _) hd') c op (h.called (Nat.le_max_right _ _) hc)
  refine h.ends_except (D := D) hm hf (E := E) ?_ ho hg (fun t c op h1 h2 => (hS t c op h1 h2).2)
    (fun c h1 => .inl fun t op h2 => (hS t c op h1 h2).1) hcS (t := t) ?_ fun s hs' => ?_
  · rintro i j ⟨s, d, opd, hcd, hij⟩ hEi
    by_cases hdS : S d
    · refine absurd ((hS s d opd hdS hcd).2 i ?_) hEi
      unfold Op.SwapsWith at hij
      split at hij
      · exact .inl hij.1
      · exact .inl hij.1
      · exact hij.elim
    · exact ⟨SwapsUp.lt (hsw s d opd hdS hcd) hij, fun hEj => hEi (hE s d opd i j hdS hcd hij hEj)⟩
  · rintro op' ⟨r, hr, ho'⟩ i hi
    obtain ⟨r', hr', ho2⟩ := hc
    rw [hr] at hr'; cases hr'
    exact hu i (by rw [← ho2, ho']; exact hi)
  · rcases running_or_over (h.called hs' hc) with hr | hov
    · exact ⟨op, hr⟩
    · exact absurd ⟨s, hs', hov⟩ hno

/-- **C52 under weak memory, the limit.** Call `c` has locked element `i` and waits (in its closure, say) until call `d` has ended, a method of the
same element, called afterwards. Then `d` never ends, so that both hang: `vec[0].map(|_| vec[0].cloned())`. Neither does it read a value that is
not there any more: however old the messages are that it reads, it keeps trying to lock the element. -/
theorem C52_weak_own_element_hangs {κ : Nat → Weak.Cfg α β} (hm : InitMem m l) (h : Weak.InfExec m κ) (hd : ∀ t, (κ t).Disciplined) {s : Nat}
    {c d : Cid} {i : Nat} {op : Op α β} (hl : Weak.HasLocked κ s c i) (hnd : ∀ op', ¬ (κ s).Called d op') (hop : op.MethodOf i)
    (hw : ∀ t, s ≤ t → ¬ (κ t).Over d op → (κ (t + 1)).calls c = (κ t).calls c) (t : Nat) : ¬ (κ t).Over d op := by
  intro hov
  let D : Mode := ⟨fun e => ∃ s d, (κ s).Called d (.deref e), False, fun i j => ∃ s d op, (κ s).Called d op ∧ op.SwapsWith i j⟩
  have ho : ∀ t c op, (κ t).Called c op → Allowed D op := by
    intro t c op hc
    refine ⟨fun i ⟨s, d, hd'⟩ => ?_, fun e he => ⟨t, c, he ▸ hc⟩, fun h => h.elim, fun i j hij => ⟨t, c, op, hc, hij⟩⟩
    exact hd (max s t) d i (h.called (Nat.le_max_left _ _) hd') c op (h.called (Nat.le_max_right _ _) hc)
  have hnone : (κ s).calls d = none := by
    rcases hc : (κ s).calls d with _ | r
    · rfl
    · exact absurd ⟨r, hc, rfl⟩ (hnd r.op)
  have hov := h.over (Nat.le_max_left t s) hov
  rcases hov with ⟨x, r, h1, h2, h3⟩ | ⟨x, r, h1, h2, h3⟩ <;>
    rw [h.own_element (mx := 0) hm ho (fun _ _ _ _ => Nat.zero_le _) hl hnone hop hw (Nat.le_max_right t s) h1 h2] at h3 <;> cases h3

section examples

namespace Weak.Show

open Verif.Demo (mem)

/-- `[10, 20]` with capacity 2: calls 1 and 2 look up both elements. Call 3 (`update` of element 0) has locked the element and stays in its
closure. Call 4 sets element 1, call 5 pushes 30, for which the storage has to grow. -/
def insideElement : List (Choice Nat Nat) :=
  [.call (.get 0) []] ++ go 1 6 ++ [.call (.get 1) []] ++ go 2 6 ++ [.call (.elUpdate (fun v => (v + 1, true)) 0) [1]] ++ go 3 2 ++
  [.call (.elSet 1 5) [2], .call (.push 30) []] ++ go 4 2 ++ go 5 10 ++ go 4 2

theorem insideElement_possible : Possible [10, 20] 2 8 insideElement := by unfold Possible; rfl

/-- The end of the execution. -/
def υe : Cfg Nat Nat := after [10, 20] 2 8 insideElement

theorem υe_reach : Reach (mem [10, 20] 2 8) υe := reach_after insideElement_possible

theorem υe_only : υe.Only fun op => op = .get 0 ∨ op = .get 1 ∨ op = .elUpdate (fun v => (v + 1, true)) 0 ∨ op = .elSet 1 5 ∨ op = .push 30 := by
  refine only_of υe_reach fun op hop => ?_
  have : ops υe = [.get 0, .get 1, .elUpdate (fun v => (v + 1, true)) 0, .elSet 1 5, .push 30] := rfl
  rw [this] at hop
  simpa using hop

end Weak.Show

open Weak.Show in
/-- The hypotheses of `C52_weak_element` are met: call 3 never ends, it has locked element 0. At moment 18 call 4 has been made, at moment 19
call 5. Both end. -/
example : (∀ t, ¬ (lasting [10, 20] 2 8 insideElement t).Over 3 (.elUpdate (fun v => (v + 1, true)) 0)) ∧
    (∃ t, 18 ≤ t ∧ (lasting [10, 20] 2 8 insideElement t).Over 4 (.elSet 1 5)) ∧
    ∃ t, 19 ≤ t ∧ (lasting [10, 20] 2 8 insideElement t).Over 5 (.push 30) := by
  have hinf := lasting_inf insideElement_possible
  have honly : ∀ t, (lasting [10, 20] 2 8 insideElement t).Only _ := fun t => lasting_only insideElement_possible υe_only t
  have hnot : ¬ υe.Over 3 (.elUpdate (fun v => (v + 1, true)) 0) := by
    have hr : υe.at' 3 = some (.running _) := rfl
    rintro (⟨x, r, h1, -, h2⟩ | ⟨k, r, h1, -, h2⟩) <;> rw [Cfg.at_some h1, h2] at hr <;> cases hr
  have hop3 : ∀ t op, (lasting [10, 20] 2 8 insideElement t).Called 3 op → op = .elUpdate (fun v => (v + 1, true)) 0 := by
    intro t op hc
    obtain ⟨r, hr, rfl⟩ := lasting_called insideElement_possible hc
    have hr' : (υe.calls 3).map Weak.Rec.op = some (.elUpdate (fun v => (v + 1, true)) 0) := rfl
    rw [show υe.calls 3 = some r from hr] at hr'
    exact Option.some.inj hr'
  have main : ∀ t c op, (lasting [10, 20] 2 8 insideElement t).Called c op → ¬ c = 3 → (∀ i, op.Uses i → ¬ i = 0) →
      ∃ t', t ≤ t' ∧ (lasting [10, 20] 2 8 insideElement t').Over c op := by
    intro t c op hc
    refine C52_weak_element Show.init hinf (S := fun c => c = 3) (E := fun i => i = 0) ?_ ?_ (mx := 8) ?_ ?_ ?_ ?_ hc
    · intro c hcS hc
      obtain ⟨t, ht, ⟨op, r, p, h1, -, h2⟩, -⟩ := hc insideElement.length
      rw [lasting_end ht] at h1
      change υe.calls c = some r at h1
      have hlt : c < 6 := Nat.lt_of_not_le fun hge => by rw [υe_reach.new c hge] at h1; cases h1
      have hst : υe.at' c = some (.running p) := by rw [Cfg.at_some (κ := υe) h1, h2]
      match c, hlt with
      | 0, _ => cases hst
      | 1, _ => cases hst
      | 2, _ => cases hst
      | 3, _ => exact absurd rfl hcS
      | 4, _ => cases hst
      | 5, _ => cases hst
    · intro t c e hc
      rcases honly t c _ hc with h | h | h | h | h <;> cases h
    · intro t
      refine ⟨fun c f ⟨r, hr, ho, _⟩ => ?_, fun c op hp => ?_⟩
      · rcases honly t c _ ⟨r, hr, ho⟩ with h | h | h | h | h <;> cases h
      · exact absurd (lasting_panicked insideElement_possible hp) (no_panic υe_reach rfl c op _)
    · rintro t c op rfl hc
      rw [hop3 t op hc]
      exact ⟨rfl, fun i hi => hi⟩
    · intro t c op i j _ hc hs
      rcases honly t c _ hc with rfl | rfl | rfl | rfl | rfl <;> exact hs.elim
    · intro t c op _ hc
      rcases honly t c _ hc with rfl | rfl | rfl | rfl | rfl <;> trivial
  refine ⟨fun t ho => hnot ?_, main 18 4 _ ⟨_, rfl, rfl⟩ (by decide) ?_, main 19 5 _ ⟨_, rfl, rfl⟩ (by decide) ?_⟩
  · have := hinf.over (Nat.le_max_left t insideElement.length) ho
    rwa [lasting_end (Nat.le_max_right _ _)] at this
  · rintro i rfl h; cases h
  · intro i hi; exact hi.elim

namespace Weak.Show

/-- `[10, 20]` with capacity 2: call 1 looks up element 0, call 2 (`update` of it) locks it, and its closure calls `cloned` of the same element
(call 3) and waits. -/
def ownElement : List (Choice Nat Nat) :=
  [.call (.get 0) []] ++ go 1 6 ++ [.call (.elUpdate (fun v => (v + 1, true)) 0) [1]] ++ go 2 2 ++ [.call (.elCloned 0) [1]] ++ go 3 2

theorem ownElement_possible : Possible [10, 20] 2 8 ownElement := by unfold Possible; rfl

theorem ownElement_call : (lasting [10, 20] 2 8 ownElement 11).calls 2 = (lasting [10, 20] 2 8 ownElement 10).calls 2 := rfl

end Weak.Show

open Weak.Show in
/-- The hypotheses of `C52_weak_own_element_hangs` are met: call 2 has locked element 0 before moment 10, call 3 is made afterwards, tries to lock the
element, and never ends. -/
example : (∃ t, (lasting [10, 20] 2 8 ownElement t).Running 3 (.elCloned 0)) ∧ ∀ t, ¬ (lasting [10, 20] 2 8 ownElement t).Over 3 (.elCloned 0) := by
  have hinf := lasting_inf ownElement_possible
  have hre : Weak.Reach (Verif.Demo.mem [10, 20] 2 8) (after [10, 20] 2 8 ownElement) := reach_after ownElement_possible
  refine ⟨⟨ownElement.length, _, _, rfl, rfl, rfl⟩, fun t => ?_⟩
  refine C52_weak_own_element_hangs Show.init hinf ?_ (s := 10) (c := 2) (i := 0) ?_ ?_ (op := .elCloned 0) rfl ?_ t
  · refine fun t => lasting_disciplined ownElement_possible (disciplined_of hre ?_) t
    have : ops (after [10, 20] 2 8 ownElement) = [.get 0, .elUpdate (fun v => (v + 1, true)) 0, .elCloned 0] := rfl
    rw [this]
    rintro op hop e rfl
    simp at hop
  · refine ⟨8, by decide, Cfg.go_moves (t := none) rfl rfl, ⟨_, rfl, rfl⟩, fun u h1 h2 => ?_⟩
    obtain rfl | rfl : u = 9 ∨ u = 10 := by omega
    · exact ⟨_, rfl, rfl⟩
    · exact ⟨_, rfl, rfl⟩
  · rintro op' ⟨r, hr, -⟩
    cases hr
  · intro t ht _
    rcases Nat.lt_or_ge t ownElement.length with hlt | hge
    · have : ownElement.length = 13 := rfl
      match t, ht, hlt with
      | 10, _, _ => exact ownElement_call
      | 11, _, _ => exact (Cfg.go_moves (c := 3) (t := none) rfl rfl).calls_other (by decide)
      | 12, _, _ => exact (Cfg.go_moves (c := 3) (t := none) rfl rfl).calls_other (by decide)
    · rw [lasting_end hge, lasting_end (Nat.le_succ_of_le hge)]

end examples

end Verif
