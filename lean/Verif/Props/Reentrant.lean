import Verif.Props.Progress
import Verif.Proof.Stalled
import Mathlib.Data.Nat.Find

/-!
# Code of the caller inside growth calls: C51

The iterator of `extend` and `extend_n_items`, the closure of `extend_for_idx` and its iterator, and the closure of
`push_for_idx` are code of the caller. It may take arbitrarily long, wait for other threads, or call functions of the
same vector. In the model this means that the call does not get any further for a while, or ever
(`StalledFrom` in `Spec/Progress.lean`), while other calls go on.
-/

namespace Verif

variable {α β : Type} {m : Mem α} {l : List α}

/-- **C51.** When a growth call is about to store a value, all the positions it has received are allocated. `extend`,
`extend_n_items` and `extend_for_idx` run the code of the caller only then: between two values, and (for the closure of
`extend_for_idx`) between the allocation and the first value. -/
theorem C51_positions_allocated {n : Nat} {κ : Nat → Cfg α β} (hm : InitMem m l) (h : Exec m l n κ) {c : Cid}
    {b k i : Nat} {v : α} (hr : Received κ n c b k) (hk : 0 < k) (hn : (κ n).Next c (.valWrite i v)) :
    b + k ≤ (κ n).w.mem.cap := by
  have hI := h.inv hm (Nat.le_refl n)
  have hres := (h.received_iff hm).1 hr
  obtain ⟨op, ⟨ct, st, p, hrun⟩, ⟨hic, hpre⟩, w', b', -, hev⟩ := hI.pre hn
  obtain ⟨op', hcall, hsz⟩ := hI.reserve_call hres
  obtain rfl := hcall.unique ⟨ct, st, _, hrun⟩
  rcases hpre with hpre | ⟨-, -, -, -, hall⟩
  · exfalso
    have hst := (hI.inv.lock i).2 (by rw [hpre]; rfl)
    obtain ⟨old, hold⟩ := Option.isSome_iff_exists.1 (hI.inv.pub_of_holder (i := i) (by rw [hpre]; rfl))
    have hval := hI.inv.val_eq i (by rw [hold]; rfl)
    rw [hold] at hval
    have := hev (.write c i old v) (by simp [Act.events, hst, hval])
    cases op <;> simp [Op.size] at hsz <;> simp [Op.Allows, Ev.isData] at this
  · have hlen := (hI.inv.legal.reserve_ge hres)
    have hlen0 : l.length ≤ b := hlen.1
    obtain ⟨b2, k2, hres2, h1, h2⟩ := Legal.owner_reserved hI.inv.legal (i := b + k - 1) (by omega) (by omega)
    have ho := hI.inv.legal.reserve_inj hres2 hres ⟨h1, h2⟩ ⟨by omega, by omega⟩
    rw [← hI.inv.spec_eq] at ho hlen
    rcases hv : (κ n).w.spec.val (b + k - 1) with _ | u
    · have := hall (b + k - 1) (by omega) ho hv
      omega
    · have := hI.inv.pub_cap (b + k - 1) (by rw [hv]; rfl)
      omega

/-- **C51 (partial).** Let the calls in `S` not get any further from some moment on (each from its own), for instance
because the code of the caller that they run never returns, or waits for other calls on the same vector. Suppose that at
that moment the positions they had received were allocated. Then every call outside `S` that does not lock elements
(growth calls, `len`, `get`, `iter`, `slice`, …) ends, if the calls outside `S` are scheduled fairly. Missing for the full
statement: stalled calls with positions that are not yet allocated. For the closure of `push_for_idx` this can happen,
and then the statement is false (`C51_hangs`). -/
theorem C51_others_end_partial (hm : InitMem m l) {κ : Nat → Cfg α β} (h : InfExec m l κ) {S : Cid → Prop}
    (hf : FairExcept S κ) (hp : ∀ t, (κ t).GrowthIntact)
    (hS : ∀ c, S c → ∃ T, StalledFrom κ T c ∧ ∀ b k, Received κ T c b k → 0 < k → b + k ≤ (κ T).w.mem.cap)
    {t : Nat} {d : Cid} {op : Op α β} (hc : (κ t).Called d op) (hd : ¬ S d) (hop : ¬ op.Locks) :
    ∃ t', (∃ x, (κ t').Returned d op x) ∨ (∃ k, (κ t').Panicked d op k) := by
  obtain ⟨t', ⟨op', ct, st, s⟩, x, hc', he⟩ := h.noLock_ends hm hf (h.allocated hm hS) hp hd hop hc
  have : op' = op := by
    have h1 : (κ (max t t')).Called d op := (h.exec _).called_mono hm (Nat.le_max_left t t') (Nat.le_refl _) hc
    have h2 : (κ (max t t')).Called d op' :=
      (h.exec _).called_mono hm (Nat.le_max_right t t') (Nat.le_refl _) ⟨ct, st, s, hc'⟩
    exact h1.unique h2
  subst this
  cases s with
  | running p => cases he
  | done x et fin => exact ⟨t', .inl ⟨x, ct, st, et, fin, hc'⟩⟩
  | panicked k et fin => exact ⟨t', .inr ⟨k, ct, st, et, fin, hc'⟩⟩

/-- **C51 (partial).** In particular: calls that are stalled while they are about to store a value (code of the caller
inside `extend`, `extend_n_items`, `extend_for_idx`), or that do not grow the vector (for instance the closure of `map` or
`update` on an element), do not keep any growth call from ending. -/
theorem C51_extend_partial (hm : InitMem m l) {κ : Nat → Cfg α β} (h : InfExec m l κ) {S : Cid → Prop}
    (hf : FairExcept S κ) (hp : ∀ t, (κ t).GrowthIntact)
    (hS : ∀ c, S c → ∃ T, StalledFrom κ T c ∧
      ((∃ i v, (κ T).Next c (.valWrite i v)) ∨ ∃ op, (κ T).Called c op ∧ op.size = none))
    {t : Nat} {d : Cid} {op : Op α β} {sz : Nat} (hc : (κ t).Called d op) (hd : ¬ S d) (hsz : op.size = some sz) :
    ∃ t', (∃ x, (κ t').Returned d op x) ∨ (∃ k, (κ t').Panicked d op k) := by
  refine C51_others_end_partial hm h hf hp (fun c hcS => ?_) hc hd
    (by cases op <;> simp [Op.size] at hsz <;> exact id)
  obtain ⟨T, hst, hT⟩ := hS c hcS
  refine ⟨T, hst, fun b k hr hk => ?_⟩
  rcases hT with ⟨i, v, hn⟩ | ⟨op', hc', hs'⟩
  · exact C51_positions_allocated hm (h.exec T) hr hk hn
  · obtain ⟨op2, hc2, hs2⟩ := (h.inv hm T).reserve_call (((h.exec T).received_iff hm).1 hr)
    obtain rfl := hc'.unique hc2
    rw [hs2] at hs'; cases hs'

/-- **C51 is false for `push_for_idx`.** Call `c` has received the position at which the storage has to grow next, and
waits (in its closure, say) until call `d`, a growth call made afterwards, has ended. Then `d` never returns. -/
theorem C51_hangs {n : Nat} {κ : Nat → Cfg α β} (hm : InitMem m l) (h : Exec m l n κ) {s : Nat} (hs : s ≤ n)
    {c d : Cid} {b k sz : Nat} {op : Op α β} (hr : Received κ s c b k) (h1 : b ≤ (κ s).w.mem.cap)
    (h2 : (κ s).w.mem.cap < b + k) (hd : ∀ op', ¬ (κ s).Called d op') (hsz : op.size = some sz) (hpos : 0 < sz)
    (hw : ∀ t, s ≤ t → t < n → (∀ et, ¬ (κ t).EndedAt d et) → (κ (t + 1)).calls c = (κ t).calls c) {x : Ret α β} :
    ¬ (κ n).Returned d op x := by
  have hres := (h.prefix hs).received_iff hm |>.1 hr
  obtain ⟨hlt, ho⟩ := (h.inv hm hs).capOwner_received hres h1 h2
  obtain ⟨opc, ⟨ct, st, sc, hc⟩, -⟩ := (h.inv hm hs).reserve_call hres
  have key : ∀ t, s ≤ t → t ≤ n → (∀ u, s ≤ u → u < t → ∀ et, ¬ (κ u).EndedAt d et) →
      ∀ x, ¬ (κ t).Returned d op x := by
    intro t hst htn hne x
    obtain ⟨-, -, hcap⟩ := h.frozen hm hc hst htn fun u hu hut => hw u hu (by omega) (hne u hu hut)
    exact (h.leads hst htn).no_return hm (h.reach hs) hlt (hcap hlt ho) hd hsz hpos
  classical
  by_cases hex : ∃ t, s ≤ t ∧ t < n ∧ ∃ et, (κ t).EndedAt d et
  · intro hret
    let t := Nat.find hex
    obtain ⟨k1, k2, et, r, w, hcd, hend⟩ : s ≤ t ∧ t < n ∧ ∃ et, (κ t).EndedAt d et := Nat.find_spec hex
    have hnot := key t k1 (by omega) (fun u hu hut et he => Nat.find_min hex hut ⟨hu, by omega, et, he⟩) x
    obtain ⟨r', g1, -, -, -, g2, -⟩ := h.rec_mono hm hcd (by omega : t ≤ n) (Nat.le_refl n)
    rw [g2 _ hend] at g1
    obtain ⟨ct', st', et', fin', hret⟩ := hret
    rw [g1] at hret
    exact hnot ⟨ct', st', et', fin', by rw [hcd, hret]⟩
  · exact key n hs (Nat.le_refl n) (fun u hu hun et he => hex ⟨u, hu, hun, et, he⟩) x

/-- **C51 is false for `push_for_idx`**, concretely: `vec.push_for_idx(|_| { vec.push(8); 7 })` on a vector of two
elements with capacity 2 never returns. The closure runs after the call has received position 2; if it waits until the
inner `push` has ended, the inner `push` never returns, whatever else happens. -/
theorem C51_negation : ∃ κ₀ : Cfg Nat Nat, Reach (Demo.mem [10, 20] 2 8) [10, 20] κ₀ ∧
    κ₀.Running 1 (.pushForIdx fun _ => some 7) ∧ (∀ op, ¬ κ₀.Called 2 op) ∧
    ∀ n κ, Exec (Demo.mem [10, 20] 2 8) [10, 20] n κ → 2 ≤ n → κ 2 = κ₀ →
      (∀ t, 2 ≤ t → t < n → (∀ et, ¬ (κ t).EndedAt 2 et) → (κ (t + 1)).calls 1 = (κ t).calls 1) →
      ∀ x, ¬ (κ n).Returned 2 (.push 8) x := by
  have hposs : Demo.Possible [10, 20] 2 8 ([.call (.pushForIdx fun _ => some 7)] ++ Demo.go 1 1) := by
    unfold Demo.Possible; rfl
  have hre := Demo.reach_after hposs
  have hm := Demo.mem_init [10, 20] 2 8 (by decide) (by decide)
  have hnew : ∀ op, ¬ (Demo.after [10, 20] 2 8 ([.call (.pushForIdx fun _ => some 7)] ++ Demo.go 1 1)).Called 2 op := by
    rintro op ⟨ct, st, s, hc⟩
    cases hc
  refine ⟨_, hre, ⟨_, _, _, rfl⟩, hnew, fun n κ h hn h2 hw x => ?_⟩
  refine C51_hangs hm h hn (c := 1) (b := 2) (k := 1) (sz := 1) ?_ ?_ ?_ ?_ rfl (by decide) hw
  · refine ((h.prefix hn).received_iff hm).2 ?_
    rw [h2]
    exact List.mem_singleton.2 rfl
  · rw [h2]; decide
  · rw [h2]; decide
  · rw [h2]; exact hnew

section examples
open Demo

/-- Call 1 (`extend_n_items([1, 2], 2)`) has stored its first value and does not get any further. Call 2 (`swap(0, 0)`)
waits for itself forever. Call 3 pushes 9 behind the positions of call 1, for which the storage has to grow, and ends. -/
def Demo.stalled : List (Choice Nat Nat) :=
  [.call (.extendN [some 1, some 2] 2)] ++ go 1 9 ++ [.call (.swap .spinning 0 0)] ++ go 2 15 ++ [.call (.push 9)] ++
  go 3 10

theorem Demo.stalled_possible : Possible [10, 20] 2 8 stalled := by unfold Possible; rfl

theorem Demo.stalled_inv : CfgInv (.ofList [10, 20]) (after [10, 20] 2 8 stalled) :=
  (reach_after stalled_possible).inv (mem_init _ _ _ (by decide) (by decide))

/-- The schedule, then call 2 waits forever. -/
theorem Demo.stalled_next (n : Nat) :
    Cfg.Moves { after [10, 20] 2 8 stalled with clock := (after [10, 20] 2 8 stalled).clock + n } 2
      { after [10, 20] 2 8 stalled with clock := (after [10, 20] 2 8 stalled).clock + n + 1 } :=
  Cfg.WaitsFor.again stalled_inv (j := 0) ⟨rfl, _, _, _, _, rfl, rfl⟩ rfl n

theorem Demo.stalled_exec : InfExec (mem [10, 20] 2 8) [10, 20] (forever [10, 20] 2 8 stalled) := by
  have he := exec_after stalled_possible
  refine ⟨by rw [forever_le (Nat.zero_le _)]; exact he.init, fun t => ?_⟩
  rcases Nat.lt_or_ge t stalled.length with hlt | hge
  · rw [forever_le (by omega), forever_le (by omega)]
    exact he.next t hlt
  · rw [forever_ge hge, forever_ge (by omega), show t + 1 - stalled.length = t - stalled.length + 1 by omega]
    exact (stalled_next _).step

theorem Demo.stalled_from : StalledFrom (forever [10, 20] 2 8 stalled) stalled.length 1 := by
  intro t ht
  rw [forever_ge ht, forever_ge (Nat.le_refl _)]

/-- The hypotheses of `C51_extend_partial` are met, with the first call stalled. -/
example : InfExec (mem [10, 20] 2 8) [10, 20] (forever [10, 20] 2 8 stalled) ∧
    FairExcept (fun c => c = 1) (forever [10, 20] 2 8 stalled) ∧
    (∀ t, (forever [10, 20] 2 8 stalled t).GrowthIntact) ∧
    StalledFrom (forever [10, 20] 2 8 stalled) stalled.length 1 ∧
    (forever [10, 20] 2 8 stalled stalled.length).Next 1 (.valWrite 3 2) ∧
    (forever [10, 20] 2 8 stalled stalled.length).Running 1 (.extendN [some 1, some 2] 2) ∧
    (forever [10, 20] 2 8 stalled stalled.length).Called 3 (.push 9) := by
  refine ⟨stalled_exec, ?_, ?_, stalled_from, ?_, ?_, ?_⟩
  · rintro t c op hc ⟨ct, st, p, hrun⟩
    rcases stalled_exec.stay_or_advance (mem_init _ _ _ (by decide) (by decide)) hrun rfl with
      hst | ⟨s, r', hs, -, -, hmv, -⟩
    · have h1 := (hst (max t stalled.length) (by omega)).1
      rw [forever_ge (by omega)] at h1
      have hk := known (by decide) (by decide) (reach_after stalled_possible) (c := c) h1
      have hlt : c < 4 := List.mem_range.1 hk
      have hc2 : c = 2 := by
        match c, hlt with
        | 0, _ => cases h1
        | 1, _ => exact absurd rfl hc
        | 2, _ => rfl
        | 3, _ => cases h1
      subst hc2
      refine ⟨max t stalled.length, by omega, ?_⟩
      rw [forever_ge (by omega), forever_ge (by omega),
        show max t stalled.length + 1 - stalled.length = max t stalled.length - stalled.length + 1 by omega]
      exact stalled_next _
    · exact ⟨s, hs, hmv⟩
  · intro t
    exact .of_no_panic fun c op k hk => intact_of (by decide) (by decide) (reach_after stalled_possible) rfl
      (panicked_forever (by decide) (by decide) stalled_possible hk)
  · rw [forever_ge (Nat.le_refl _)]
    exact ⟨_, _, _, _, _, rfl⟩
  · rw [forever_ge (Nat.le_refl _)]
    exact ⟨_, _, _, rfl⟩
  · rw [forever_ge (Nat.le_refl _)]
    exact ⟨_, _, _, rfl⟩

/-- A moment as in `C51_positions_allocated`: call 1 has received the positions 2 and 3 and is about to store its second
value; meanwhile call 3 has made the storage grow. -/
example : ∃ (n : Nat) (κ : Nat → Cfg Nat Nat), Exec (mem [10, 20] 2 8) [10, 20] n κ ∧ Received κ n 1 2 2 ∧ (κ n).Next 1 (.valWrite 3 2) ∧
    (κ n).w.mem.cap = 5 := by
  refine ⟨_, _, exec_after stalled_possible, ?_, ?_, ?_⟩
  · refine ((exec_after stalled_possible).received_iff (mem_init _ _ _ (by decide) (by decide))).2 ?_
    rw [List.take_length]
    exact List.mem_cons_self
  · rw [List.take_length]
    exact ⟨_, _, _, _, _, rfl⟩
  · rw [List.take_length]
    rfl

/-- An execution as in `C51_hangs` and `C51_negation`: call 1 (`push_for_idx`) is in its closure, call 2 (`push`), made
afterwards, is waiting for capacity. -/
def Demo.nested : List (Choice Nat Nat) :=
  [.call (.pushForIdx fun _ => some 7)] ++ go 1 1 ++ [.call (.push 8)] ++ go 2 4

theorem Demo.nested_possible : Possible [10, 20] 2 8 nested := by unfold Possible; rfl

example : ∃ κ : Nat → Cfg Nat Nat, Exec (mem [10, 20] 2 8) [10, 20] 7 κ ∧ Received κ 2 1 2 1 ∧ (κ 2).w.mem.cap = 2 ∧
    (∀ op, ¬ (κ 2).Called 2 op) ∧ (κ 7).Running 2 (.push 8) ∧
    ∀ t, 2 ≤ t → t < 7 → (κ (t + 1)).calls 1 = (κ t).calls 1 := by
  refine ⟨_, exec_after nested_possible, ?_, rfl, ?_, ⟨_, _, _, rfl⟩, ?_⟩
  · refine (((exec_after nested_possible).prefix (by decide : 2 ≤ nested.length)).received_iff
      (mem_init _ _ _ (by decide) (by decide))).2 ?_
    exact List.mem_cons_self
  · rintro op ⟨ct, st, s, hc⟩
    cases hc
  · intro t h1 h2
    match t, h1, h2 with
    | 2, _, _ => rfl
    | 3, _, _ => rfl
    | 4, _, _ => rfl
    | 5, _, _ => rfl
    | 6, _, _ => rfl

end examples

end Verif
