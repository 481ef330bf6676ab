import Verif.Props.DemoWeakInf

/-!
# C54: progress under weak memory

Theorems about all executions of the weak memory model (`Weak/Model.lean`): nobody waits for somebody who cannot get ahead, everything
that was started can be finished, and it is finished if the scheduler and the memory are fair.
-/

namespace Verif

variable {α β : Type} {m : Mem α} {l : List α}

/-! ## examples used below -/

namespace Weak.Show

open Verif.Demo (mem mem_init)

/-- `[10, 20]` with capacity 2: calls 1 (`push 7`) and 2 (`push 8`) have reserved the positions 2 and 3; call 2 waits for call 1 to grow
the storage. -/
def queue : List (Choice Nat Nat) := [.call (.push 7) [], .call (.push 8) []] ++ go 1 1 ++ go 2 4

theorem queue_possible : Possible [10, 20] 2 8 queue := by unfold Possible; rfl

/-- The situation after `queue`. -/
def χ : Cfg Nat Nat := after [10, 20] 2 8 queue

theorem χ_reach : Reach (mem [10, 20] 2 8) χ := reach_after queue_possible

theorem χ_ops : ops χ = [.push 7, .push 8] := rfl

/-- Only `push`. -/
def Pushes (κ : Cfg Nat Nat) : Prop := κ.Only fun op => ∃ v, op = .push v

theorem pushes_of {m : Mem Nat} {κ : Cfg Nat Nat} (h : Reach m κ) (ho : ops κ = [.push 7, .push 8]) : Pushes κ := by
  refine only_of h fun op hop => ?_
  rw [ho] at hop
  simp only [List.mem_cons, List.not_mem_nil, or_false] at hop
  rcases hop with h | h
  · exact ⟨7, h⟩
  · exact ⟨8, h⟩

theorem Pushes.disciplined {κ : Cfg Nat Nat} (h : Pushes κ) : κ.Disciplined := fun c e hc => by
  obtain ⟨v, hv⟩ := h c _ hc; cases hv

theorem Pushes.swapsUp {κ : Cfg Nat Nat} (h : Pushes κ) : κ.SwapsUp := fun c op hc => by
  obtain ⟨v, rfl⟩ := h c _ hc; trivial

theorem Pushes.safe {κ : Cfg Nat Nat} (h : Pushes κ) : κ.SafeClosures := fun c op hc f hf => by
  obtain ⟨v, hv⟩ := h c _ hc; rw [hv] at hf; cases hf

theorem Pushes.intact {κ : Cfg Nat Nat} {mx : Nat} (h : Pushes κ) (hx : ∀ c op, κ.Panicked c op .maxCapacity → κ.mem.maxCap = mx) :
    κ.GrowthIntact mx :=
  ⟨fun c f ⟨r, hr, ho, _⟩ => (by obtain ⟨v, hv⟩ := h c _ ⟨r, hr, ho⟩; cases hv), hx⟩

theorem χ_pushes : Pushes χ := pushes_of χ_reach χ_ops

/-- Who keeps reading the capacity, whatever message they read, is blocked. -/
theorem blocked_cap {κ : Cfg Nat Nat} {c : Cid} {r : Rec Nat Nat} {o : MOrd} {again : Nat → Bool} {k : Nat → Prog Nat (Ret Nat Nat)}
    (hc : κ.calls c = some r) (hr : r.status = .running (.step (.capLoad o) again k)) (hw : ∀ q ∈ κ.mem.cap, again q.val = true) :
    κ.Blocked c := by
  refine ⟨⟨_, r, _, hc, rfl, hr⟩, ?_⟩
  rintro κ' ⟨⟨r', hc', h⟩, hne⟩
  rw [hc] at hc'; injection hc' with hc'; subst hc'
  rcases h with ⟨a, again', k', t, V, m, b, hr', he, rfl⟩ | ⟨x, hr', -⟩ | ⟨x, hr', -⟩
  · rw [hr] at hr'
    injection hr' with hr'
    cases hr'
    refine hne ?_
    rw [Cfg.at_some hc, Cfg.at_some (upd_same _ _ _), hr]
    simp only [exec] at he
    split at he
    · next q hq =>
      split at he
      · cases he
        rw [if_pos (hw q (List.mem_of_getElem? hq))]
      · cases he
    · cases he
  · rw [hr] at hr'; cases hr'
  · rw [hr] at hr'; cases hr'

/-- Call 2 reads the capacity, again and again; it is always 2. -/
theorem χ_blocked : χ.Blocked 2 := by
  refine blocked_cap rfl rfl fun q hq => ?_
  have h : χ.mem.cap = [.init 2] := rfl
  rw [h, List.mem_singleton] at hq
  subst hq; rfl

/-- The maximum capacity is raised from 2 to 8, then both pushes come to their ends. -/
def both : List (Choice Nat Nat) := [.raise 8] ++ queue ++ go 1 9 ++ go 2 8

theorem both_possible : Possible [10, 20] 2 2 both := by unfold Possible; rfl

/-- Call 1 has returned; call 2 could read the new capacity, but it keeps reading the old one. -/
def stale : List (Choice Nat Nat) := queue ++ go 1 9

theorem stale_possible : Possible [10, 20] 2 8 stale := by unfold Possible; rfl

/-- The situation after `stale`. -/
def ς : Cfg Nat Nat := after [10, 20] 2 8 stale

theorem ς_reach : Reach (mem [10, 20] 2 8) ς := reach_after stale_possible

theorem join_bot (V : View) : V.join .bot = V := by
  unfold View.join View.bot; simp

theorem atCap_zero (V : View) : V.atCap 0 = V := by
  unfold View.atCap; simp

/-- Reading the first capacity again changes nothing. -/
theorem stays {κ : Cfg Nat Nat} {c : Cid} {r : Rec Nat Nat} {o : MOrd} {again : Nat → Bool} {k : Nat → Prog Nat (Ret Nat Nat)} {n : Nat}
    (hc : κ.calls c = some r) (hr : r.status = .running (.step (.capLoad o) again k)) (hv : r.view.cap = 0)
    (h0 : κ.mem.cap[0]? = some (.init n)) (hw : again n = true) : κ.Moves c κ := by
  refine ⟨r, hc, .inl ⟨.capLoad o, again, k, 0, r.view, κ.mem, n, hr, ?_, ?_⟩⟩
  · have h1 : r.view.read o (Msg.init n) = r.view := by
      unfold View.read
      split
      · exact join_bot _
      · rfl
    simp only [exec, h0, hv, Nat.le_refl, if_true]
    rw [h1, atCap_zero]; rfl
  · have h2 : ({ r with view := r.view, status := .running (if again n then .step (.capLoad o) again k else k n) } : Rec Nat Nat) = r := by
      rw [hw, if_pos rfl, ← hr]
    have h3 : upd κ.calls c (some r) = κ.calls := by rw [← hc]; exact upd_self _ _
    rw [h2, h3]

theorem ς_stays : ς.Moves 2 ς := stays (n := 2) rfl rfl rfl rfl rfl

end Weak.Show

open Weak in
/-- Nothing gets stuck: in every reachable situation in which some call is running, some running call can get ahead. (If user code keeps
its promises for raw pointers, blocking swaps are called with the smaller index first, no closure given to `push_for_idx` has panicked
and the maximum capacity was not raised if somebody has exceeded it; see C22, C51 for what happens otherwise.) -/
theorem C54_not_stuck {κ : Weak.Cfg α β} (hm : InitMem m l) (h : Weak.Reach m κ) (hd : κ.Disciplined) (hs : κ.SwapsUp)
    (hg : κ.GrowthIntact m.maxCap) {c : Cid} {op : Op α β} (hc : κ.Running c op) : ∃ d op', κ.Running d op' ∧ ∃ κ', κ.Advances d κ' := by
  obtain ⟨K, K0, hW, hP⟩ := pinv (D := orderedMode κ) hm h fun c op hc => allowed_ordered hd hs hc
  obtain ⟨d, ⟨op', hr⟩, hb⟩ := not_stuck hW hP (binv h) (fun _ _ h => h) hg ⟨op, hc⟩
  exact ⟨d, op', hr, Classical.byContradiction fun hno => hb ⟨⟨op', hr⟩, fun κ' h' => hno ⟨κ', h'⟩⟩⟩

open Weak Weak.Show in
/-- Call 2 is blocked, so it is another call that can get ahead. -/
example : χ.Blocked 2 ∧ ∃ d op', d ≠ 2 ∧ χ.Running d op' ∧ ∃ κ', χ.Advances d κ' := by
  refine ⟨χ_blocked, ?_⟩
  obtain ⟨op, hc⟩ := χ_blocked.1
  obtain ⟨d, op', h1, κ', h2⟩ := C54_not_stuck Show.init χ_reach χ_pushes.disciplined χ_pushes.swapsUp (χ_pushes.intact fun _ _ _ => rfl) hc
  exact ⟨d, op', fun he => χ_blocked.2 κ' (he ▸ h2), h1, κ', h2⟩

open Weak in
/-- Everything that was started can be finished: the running calls can be continued, without any further calls, until all of them have
returned or panicked. (If user code keeps its promises for raw pointers, blocking swaps are called with the smaller index first, closures
given to `push_for_idx` do not panic, and the maximum capacity was not raised if somebody has exceeded it.) -/
theorem C54_completes {κ : Weak.Cfg α β} (hm : InitMem m l) (h : Weak.Reach m κ) (hd : κ.Disciplined) (hs : κ.SwapsUp)
    (hf : κ.SafeClosures) (hx : ∀ c op, κ.Panicked c op .maxCapacity → κ.mem.maxCap = m.maxCap) : ∃ κ', κ.Runs κ' ∧ κ'.Idle :=
  completes hm h hd hs hf hx

open Weak Weak.Show in
example : ∃ κ', χ.Runs κ' ∧ κ'.Idle := C54_completes Show.init χ_reach χ_pushes.disciplined χ_pushes.swapsUp χ_pushes.safe fun _ _ _ => rfl

open Weak in
/-- If the scheduler and the memory are strongly fair, then every call returns or panics. (The maximum capacity may be raised before
somebody exceeds it, but not after: `mx` is its final value then.) -/
theorem C54_ends {κ : Nat → Weak.Cfg α β} (hm : InitMem m l) (h : Weak.InfExec m κ) (hf : Weak.StronglyFair κ) (hd : ∀ t, (κ t).Disciplined)
    (hs : ∀ t, (κ t).SwapsUp) {mx : Nat} (hg : ∀ t, (κ t).GrowthIntact mx) {t : Nat} {c : Cid} {op : Op α β} (hc : (κ t).Called c op) :
    ∃ t', t ≤ t' ∧ (κ t').Over c op := by
  refine Classical.byContradiction fun hno => ?_
  let D : Mode := ⟨fun e => ∃ s d, (κ s).Called d (.deref e), False, fun i j => i < j⟩
  have ho : ∀ t c op, (κ t).Called c op → Allowed D op := by
    intro t c op hc
    refine ⟨fun i ⟨s, d, hd'⟩ => ?_, fun e he => ⟨t, c, he ▸ hc⟩, fun h => h.elim, fun _ _ => SwapsUp.lt (hs t c op hc)⟩
    exact hd (max s t) d i (h.called (Nat.le_max_left _ _) hd') c op (h.called (Nat.le_max_right _ _) hc)
  refine h.ends (D := D) hm hf (fun _ _ h => h) ho hg (c := c) (t := t) fun s hs' => ?_
  rcases running_or_over (h.called hs' hc) with hr | hov
  · exact ⟨op, hr⟩
  · exact absurd ⟨s, hs', hov⟩ hno

open Weak Weak.Show Demo in
/-- Moment 3: both pushes have been called. In the execution `both`, call 2 waits for call 1. -/
example : ∃ t', 3 ≤ t' ∧ (lasting [10, 20] 2 2 both t').Over 2 (.push 8) := by
  have hr := reach_after both_possible
  have hp : Pushes (after [10, 20] 2 2 both) := pushes_of hr rfl
  have hp' : ∀ t, Pushes (lasting [10, 20] 2 2 both t) := fun t => lasting_only both_possible hp t
  exact C54_ends (mem_init _ _ _ (by decide) (by decide)) (lasting_inf both_possible) (lasting_fair (idle_of hr rfl))
    (fun t => (hp' t).disciplined) (fun t => (hp' t).swapsUp) (mx := 8)
    (fun t => (hp' t).intact fun c op hc => absurd (lasting_panicked both_possible hc) (no_panic hr rfl c op _))
    (t := 3) (c := 2) ⟨_, rfl, rfl⟩

open Weak Weak.Show in
/-- Fair scheduling alone is not enough: the memory model allows a `push` to read an outdated capacity forever, although the storage has
been grown and the other call has returned. (C++ and Rust only recommend that writes become visible in finite time.) -/
theorem C54_needs_visibility : ∃ (m : Mem Nat) (κ : Nat → Weak.Cfg Nat Nat), InitMem m [10, 20] ∧ Weak.InfExec m κ ∧ FairScheduling κ ∧
    (∀ t, (κ t).Only fun op => op = .push 7 ∨ op = .push 8) ∧ ∃ T, (κ T).Returned 1 (.push 7) (.nat 2) ∧
    ∀ t, T ≤ t → (κ t).Running 2 (.push 8) ∧ ¬ (κ t).Blocked 2 := by
  have hend : ∀ t, 16 ≤ t → lasting [10, 20] 2 8 stale t = ς := fun t ht => lasting_end ht
  have hops : ς.Only fun op => op = .push 7 ∨ op = .push 8 := by
    refine only_of ς_reach fun op hop => ?_
    have : ops ς = [.push 7, .push 8] := rfl
    rw [this] at hop
    simpa using hop
  have hrun : ς.Running 2 (.push 8) := ⟨_, _, rfl, rfl, rfl⟩
  have hinf := lasting_inf stale_possible
  refine ⟨_, lasting [10, 20] 2 8 stale, Show.init, hinf, ?_, fun t => lasting_only stale_possible hops t, 16, ?_, fun t ht => ?_⟩
  · intro t c op hc
    have hcn : c = 1 ∨ c = 2 := by
      obtain ⟨r, p, hr, ho, -⟩ := hc
      obtain ⟨r', hr', -⟩ := lasting_called stale_possible ⟨r, hr, ho⟩
      have hlt : c < 3 := by
        refine Nat.lt_of_not_le fun hge => ?_
        have := ς_reach.new c hge
        rw [show ς.calls c = some r' from hr'] at this; cases this
      have h0 : ς.calls 0 = none := rfl
      rcases c with _ | _ | _ | c
      · rw [show ς.calls 0 = some r' from hr'] at h0; cases h0
      · exact .inl rfl
      · exact .inr rfl
      · exact absurd (show _ + 1 + 1 + 1 < 3 from hlt) (Nat.not_lt.2 (Nat.le_add_left 3 _))
    rcases hcn with rfl | rfl
    · rcases Nat.lt_or_ge t 16 with ht | ht
      · refine ⟨15, by omega, ?_⟩
        refine Cfg.go_moves (t := none) (lasting_perform stale_possible (t := 15) (by decide)) ?_
        rw [hend 16 (by omega)]; rfl
      · rw [hend t ht] at hc
        obtain ⟨r, p, hr, -, hp⟩ := hc
        have hd : ς.at' 1 = some (.done (.nat 2)) := rfl
        rw [Cfg.at_some hr, hp] at hd; cases hd
    · refine ⟨max t 16, Nat.le_max_left _ _, ?_⟩
      rw [hend _ (Nat.le_max_right _ _), hend _ (by omega)]
      exact ς_stays
  · rw [hend 16 (Nat.le_refl _)]
    exact Cfg.returned_of rfl rfl
  · rw [hend t ht]
    refine ⟨hrun, fun hb => ?_⟩
    have hp : Pushes ς := pushes_of ς_reach rfl
    obtain ⟨d, op', hd, κ', hadv⟩ := C54_not_stuck Show.init ς_reach hp.disciplined hp.swapsUp (hp.intact fun _ _ _ => rfl) hrun
    have hd2 : d = 2 := by
      obtain ⟨r, p, hr, -, hp⟩ := hd
      have hlt : d < 3 := by
        refine Nat.lt_of_not_le fun hge => ?_
        rw [ς_reach.new d hge] at hr; cases hr
      have h0 : ς.calls 0 = none := rfl
      have h1 : ς.at' 1 = some (.done (.nat 2)) := rfl
      rcases d with _ | _ | _ | d
      · rw [hr] at h0; cases h0
      · rw [Cfg.at_some hr, hp] at h1; cases h1
      · rfl
      · exact absurd (show _ + 1 + 1 + 1 < 3 from hlt) (Nat.not_lt.2 (Nat.le_add_left 3 _))
    subst hd2
    exact hb.2 κ' hadv

end Verif
