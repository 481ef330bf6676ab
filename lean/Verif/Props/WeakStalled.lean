import Verif.Weak.Stalled
import Verif.Props.Weak
import Verif.Props.DemoWeakInf

/-!
# Code of the caller inside growth calls, under weak memory: C51

The failure of `push_for_idx` is in `Props/WeakLost.lean`; here is what holds for the other growth calls.
-/

namespace Verif

open Weak

variable {α β : Type} {m : Mem α} {l : List α}

/-- **C51 under weak memory.** When a growth call is about to store a value, storage exists for all the positions it has received. `extend`,
`extend_n_items` and `extend_for_idx` run the code of the caller only then. -/
theorem C51_weak_positions_allocated {κ : Nat → Weak.Cfg α β} (hm : InitMem m l) (h : Weak.InfExec m κ) (hd : ∀ t, (κ t).Disciplined) {n : Nat}
    {c : Cid} {b k i : Nat} {v : α} (hr : Weak.Received κ n c b k) (hk : 0 < k) (hs : (κ n).Stores c i v) : (κ n).Allocated (b + k) := by
  refine h.positions_allocated (D := ⟨fun e => ∃ s d, (κ s).Called d (.deref e), False, fun _ _ => True⟩) (mx := 0) hm (fun t c op hc => ?_)
    (fun _ _ _ _ => Nat.zero_le _) hr hk hs
  refine ⟨fun i ⟨s, d, hd'⟩ => ?_, fun e he => ⟨t, c, he ▸ hc⟩, fun h => h.elim, fun _ _ _ => trivial⟩
  exact hd (max s t) d i (h.called (Nat.le_max_left _ _) hd') c op (h.called (Nat.le_max_right _ _) hc)

/-- **C51 under weak memory (partial).** Let each call in `S` be a call that does not grow the vector, or a call that does not get any further from
some moment on, at which storage existed for all the positions it had received. Then every call outside `S` that locks no elements (growth
calls, `len`, `get`, `iter`, `slice`, …) ends, if scheduler and memory are strongly fair for the calls outside `S`. Missing for the full
statement: calls that are stalled before storage for their positions exists. For the closure of `push_for_idx` this can happen, and then the
statement is false (`C51_weak_hangs`). -/
theorem C51_weak_others_end_partial {κ : Nat → Weak.Cfg α β} (hm : InitMem m l) (h : Weak.InfExec m κ) {S : Cid → Prop}
    (hf : Weak.StronglyFairExcept S κ) (hd : ∀ t, (κ t).Disciplined) {mx : Nat} (hg : ∀ t, (κ t).GrowthIntact mx)
    (hS : ∀ c, S c → (∀ t op, (κ t).Called c op → op.size = none) ∨
      ∃ T, Weak.StalledFrom κ T c ∧ ∀ b k, Weak.Received κ T c b k → 0 < k → (κ T).Allocated (b + k))
    {t : Nat} {c : Cid} {op : Op α β} (hc : (κ t).Called c op) (hcS : ¬ S c) (hop : ¬ op.Locks) : ∃ t', t ≤ t' ∧ (κ t').Over c op := by
  refine Classical.byContradiction fun hno => ?_
  let D : Mode := ⟨fun e => ∃ s d, (κ s).Called d (.deref e), False, fun _ _ => True⟩
  have ho : ∀ t c op, (κ t).Called c op → Allowed D op := by
    intro t c op hc
    refine ⟨fun i ⟨s, d, hd'⟩ => ?_, fun e he => ⟨t, c, he ▸ hc⟩, fun h => h.elim, fun _ _ _ => trivial⟩
    exact hd (max s t) d i (h.called (Nat.le_max_left _ _) hd') c op (h.called (Nat.le_max_right _ _) hc)
  refine h.ends_except (D := D) hm hf (E := fun _ => True) (fun _ _ _ hE => absurd trivial hE) ho hg (fun _ _ _ _ _ _ _ => trivial) hS hcS
    (t := t) ?_ fun s hs' => ?_
  · rintro op' ⟨r, hr, ho'⟩ i hi
    obtain ⟨r', hr', ho2⟩ := hc
    rw [hr] at hr'; cases hr'
    have : op' = op := by rw [← ho', ho2]
    subst this
    cases op' <;> first | exact (hop trivial).elim | exact hi.elim
  · rcases running_or_over (h.called hs' hc) with hr | hov
    · exact ⟨op, hr⟩
    · exact absurd ⟨s, hs', hov⟩ hno

/-- **C51 under weak memory (partial).** In particular: calls that are stalled while they are about to store a value (code of the caller inside
`extend`, `extend_n_items` or `extend_for_idx` that never returns, or that waits for other calls on the same vector), and calls that do not grow
the vector (for instance in the closure of `map` or `update` on an element), do not keep any call from ending that locks no elements. -/
theorem C51_weak_extend_partial {κ : Nat → Weak.Cfg α β} (hm : InitMem m l) (h : Weak.InfExec m κ) {S : Cid → Prop}
    (hf : Weak.StronglyFairExcept S κ) (hd : ∀ t, (κ t).Disciplined) {mx : Nat} (hg : ∀ t, (κ t).GrowthIntact mx)
    (hS : ∀ c, S c → (∀ t op, (κ t).Called c op → op.size = none) ∨ ∃ T, Weak.StalledFrom κ T c ∧ ∃ i v, (κ T).Stores c i v)
    {t : Nat} {c : Cid} {op : Op α β} (hc : (κ t).Called c op) (hcS : ¬ S c) (hop : ¬ op.Locks) : ∃ t', t ≤ t' ∧ (κ t').Over c op := by
  refine C51_weak_others_end_partial hm h hf hd hg (fun d hdS => ?_) hc hcS hop
  rcases hS d hdS with h1 | ⟨T, h1, i, v, h2⟩
  · exact .inl h1
  · exact .inr ⟨T, h1, fun b k hr hk => C51_weak_positions_allocated hm h hd hr hk h2⟩

section examples

namespace Weak.Show

open Verif.Demo (mem)

/-- `[10, 20]` with capacity 2: call 1 (`extend_n_items([1, 2], 2)`) has stored its first value, and its iterator never yields the second one. Call 2
pushes 9 behind the positions of call 1, for which the storage has to grow again. -/
def insideExtend : List (Choice Nat Nat) :=
  [.call (.extendN [some 1, some 2] 2) []] ++ go 1 9 ++ [.call (.push 9) []] ++ go 2 10

theorem insideExtend_possible : Possible [10, 20] 2 8 insideExtend := by unfold Possible; rfl

/-- The end of the execution. -/
def υx : Cfg Nat Nat := after [10, 20] 2 8 insideExtend

theorem υx_reach : Reach (mem [10, 20] 2 8) υx := reach_after insideExtend_possible

theorem υx_only : υx.Only fun op => op = .extendN [some 1, some 2] 2 ∨ op = .push 9 := by
  refine only_of υx_reach fun op hop => ?_
  have : ops υx = [.extendN [some 1, some 2] 2, .push 9] := rfl
  rw [this] at hop
  simpa using hop

end Weak.Show

open Weak.Show in
/-- The hypotheses of `C51_weak_extend_partial` are met: call 1 never ends, and is about to store 2 at position 3 from the end of the schedule on.
At moment 11 call 2 has been made; it ends. -/
example : (∀ t, ¬ (lasting [10, 20] 2 8 insideExtend t).Over 1 (.extendN [some 1, some 2] 2)) ∧
    ∃ t, 11 ≤ t ∧ (lasting [10, 20] 2 8 insideExtend t).Over 2 (.push 9) := by
  have hinf := lasting_inf insideExtend_possible
  have honly : ∀ t, (lasting [10, 20] 2 8 insideExtend t).Only _ := fun t => lasting_only insideExtend_possible υx_only t
  have hnot : ¬ υx.Over 1 (.extendN [some 1, some 2] 2) := by
    have hr : υx.at' 1 = some (.running _) := rfl
    rintro (⟨x, r, h1, -, h2⟩ | ⟨k, r, h1, -, h2⟩) <;> rw [Cfg.at_some h1, h2] at hr <;> cases hr
  refine ⟨fun t ho => hnot ?_, ?_⟩
  · have := hinf.over (Nat.le_max_left t insideExtend.length) ho
    rwa [lasting_end (Nat.le_max_right _ _)] at this
  refine C51_weak_extend_partial Show.init hinf (S := fun c => c = 1) ?_ ?_ (mx := 8) ?_ ?_ (t := 11) (c := 2) ⟨_, rfl, rfl⟩ (by decide) id
  · intro c hcS hc
    obtain ⟨t, ht, ⟨op, r, p, h1, -, h2⟩, -⟩ := hc insideExtend.length
    rw [lasting_end ht] at h1
    change υx.calls c = some r at h1
    have hlt : c < 3 := Nat.lt_of_not_le fun hge => by rw [υx_reach.new c hge] at h1; cases h1
    have hst : υx.at' c = some (.running p) := by rw [Cfg.at_some (κ := υx) h1, h2]
    match c, hlt with
    | 0, _ => cases hst
    | 1, _ => exact absurd rfl hcS
    | 2, _ => cases hst
  · intro t c e hc
    rcases honly t c _ hc with h | h <;> cases h
  · intro t
    refine ⟨fun c f ⟨r, hr, ho, _⟩ => ?_, fun c op hp => ?_⟩
    · rcases honly t c _ ⟨r, hr, ho⟩ with h | h <;> cases h
    · exact absurd (lasting_panicked insideExtend_possible hp) (no_panic υx_reach rfl c op _)
  · rintro c rfl
    refine .inr ⟨insideExtend.length, fun t ht => ?_, 3, 2, ?_⟩
    · rw [lasting_end ht, lasting_end (Nat.le_refl _)]
    · rw [lasting_end (Nat.le_refl _)]
      exact ⟨_, _, _, rfl, rfl⟩

open Weak.Show in
/-- The hypotheses of `C51_weak_positions_allocated` are met: call 1 has received the positions 2 and 3 (its `fetch_add` is its first action), and is
about to store 2 at position 3. The capacity has grown from 2 to 4, and later on, for call 2, beyond. -/
example : Weak.Received (lasting [10, 20] 2 8 insideExtend) 10 1 2 2 ∧ (lasting [10, 20] 2 8 insideExtend 10).Stores 1 3 2 ∧
    (lasting [10, 20] 2 8 insideExtend 10).Allocated 4 ∧ ¬ (lasting [10, 20] 2 8 insideExtend 10).Allocated 5 ∧
    (lasting [10, 20] 2 8 insideExtend insideExtend.length).Allocated 5 := by
  refine ⟨⟨1, by decide, ⟨_, _, _, _, rfl, rfl⟩, ⟨_, rfl, rfl⟩, Cfg.go_moves (t := none) rfl rfl⟩, ⟨_, _, _, rfl, rfl⟩, ⟨_, rfl, by decide⟩, ?_, ⟨_, rfl, by decide⟩⟩
  rintro ⟨q, hq, hv⟩
  cases hq
  exact absurd hv (by decide)

namespace Weak.Show

open Verif.Demo (mem)

/-- `[10, 20]` with capacity 4: call 1 (`push_for_idx`) has received position 2, for which storage exists, and its closure never returns. Call 2
pushes 8. -/
def insideClosure : List (Choice Nat Nat) := [.call (.pushForIdx fun _ => some 7) []] ++ go 1 1 ++ [.call (.push 8) []] ++ go 2 6

theorem insideClosure_possible : Possible [10, 20] 4 8 insideClosure := by unfold Possible; rfl

/-- The end of the execution. -/
def υc : Cfg Nat Nat := after [10, 20] 4 8 insideClosure

theorem υc_reach : Reach (mem [10, 20] 4 8) υc := reach_after insideClosure_possible

theorem υc_only : υc.Only fun op => op = .pushForIdx (fun _ => some 7) ∨ op = .push 8 := by
  refine only_of υc_reach fun op hop => ?_
  have : ops υc = [.pushForIdx fun _ => some 7, .push 8] := rfl
  rw [this] at hop
  simpa using hop

theorem insideClosure_stalled : StalledFrom (lasting [10, 20] 4 8 insideClosure) 2 1 := by
  intro t ht
  rcases Nat.lt_or_ge t 9 with hlt | hge
  · have : t = 2 ∨ t = 3 ∨ t = 4 ∨ t = 5 ∨ t = 6 ∨ t = 7 ∨ t = 8 := by omega
    rcases this with rfl | rfl | rfl | rfl | rfl | rfl | rfl <;> rfl
  · rw [lasting_end (chs := insideClosure) (t := t) hge]
    rfl

end Weak.Show

open Weak.Show in
/-- The hypotheses of `C51_weak_others_end_partial` are met: call 1 is stalled from moment 2 on and never ends. At moment 3 call 2 has been made; it
ends. -/
example : (∀ t, ¬ (lasting [10, 20] 4 8 insideClosure t).Over 1 (.pushForIdx fun _ => some 7)) ∧
    ∃ t, 3 ≤ t ∧ (lasting [10, 20] 4 8 insideClosure t).Over 2 (.push 8) := by
  have hinf := lasting_inf insideClosure_possible
  have honly : ∀ t, (lasting [10, 20] 4 8 insideClosure t).Only _ := fun t => lasting_only insideClosure_possible υc_only t
  have hnot : ¬ υc.Over 1 (.pushForIdx fun _ => some 7) := by
    have hr : υc.at' 1 = some (.running _) := rfl
    rintro (⟨x, r, h1, -, h2⟩ | ⟨k, r, h1, -, h2⟩) <;> rw [Cfg.at_some h1, h2] at hr <;> cases hr
  refine ⟨fun t ho => hnot ?_, ?_⟩
  · have := hinf.over (Nat.le_max_left t insideClosure.length) ho
    rwa [lasting_end (Nat.le_max_right _ _)] at this
  refine C51_weak_others_end_partial (Demo.mem_init [10, 20] 4 8 (by decide) (by decide)) hinf (S := fun c => c = 1) ?_ ?_ (mx := 8) ?_ ?_ (t := 3) (c := 2) ⟨_, rfl, rfl⟩ (by decide) id
  · intro c hcS hc
    obtain ⟨t, ht, ⟨op, r, p, h1, -, h2⟩, -⟩ := hc insideClosure.length
    rw [lasting_end ht] at h1
    change υc.calls c = some r at h1
    have hlt : c < 3 := Nat.lt_of_not_le fun hge => by rw [υc_reach.new c hge] at h1; cases h1
    have hst : υc.at' c = some (.running p) := by rw [Cfg.at_some (κ := υc) h1, h2]
    match c, hlt with
    | 0, _ => cases hst
    | 1, _ => exact absurd rfl hcS
    | 2, _ => cases hst
  · intro t c e hc
    rcases honly t c _ hc with h | h <;> cases h
  · intro t
    have hnp : ∀ c op k, ¬ (lasting [10, 20] 4 8 insideClosure t).Panicked c op k := fun c op k hp =>
      no_panic υc_reach rfl c op k (lasting_panicked insideClosure_possible hp)
    exact ⟨fun c f => hnp c _ _, fun c op hp => absurd hp (hnp c _ _)⟩
  · rintro c rfl
    refine .inr ⟨2, insideClosure_stalled, ?_⟩
    rintro b k ⟨t, ht, ⟨r, o, again, f, hc, hr⟩, ⟨q, hq, rfl⟩, -⟩ -
    obtain rfl | rfl : t = 0 ∨ t = 1 := by omega
    · cases hc
    · cases hc
      cases hr
      cases hq
      exact ⟨_, rfl, by decide⟩

end examples

end Verif
