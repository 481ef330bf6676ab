import Verif.Props.DemoInf
import Verif.Props.Swap
import Verif.Props.Safety

/-!
# Progress: C08, C21, C22, C24, C43

`Blocked`, `Stuck`, `GrowthIntact`, `SwapsUp`, `Locks`, `InfExec`, `Fair`, `Leads` are defined in
`Spec/Progress.lean`.
-/

namespace Verif

variable {α β : Type} {m : Mem α} {l : List α}

/-! ## C08 -/

/-- If no call has panicked (and more generally, see `GrowthIntact`). -/
theorem Cfg.GrowthIntact.of_no_panic {κ : Cfg α β} (h : ∀ c op k, ¬ κ.Panicked c op k) : κ.GrowthIntact :=
  fun c op k _ hp => absurd hp (h c op k)

/-- **C08.** Whenever a growth call is unfinished, some unfinished growth call can make progress: it can make a step
that changes its state or the memory. -/
theorem C08_not_stuck (hm : InitMem m l) {κ : Cfg α β} (h : Reach m l κ) (hp : κ.GrowthIntact) {c : Cid} {op : Op α β}
    {n : Nat} (hr : κ.Running c op) (hs : op.size = some n) :
    ∃ d op' n', κ.Running d op' ∧ op'.size = some n' ∧ ¬ κ.Blocked d := by
  have hI := h.inv hm
  by_cases hb : κ.Blocked c
  · obtain ⟨r, a, again, k, b, hc, hst, he, hag, hok⟩ := hI.blocked_iff.1 hb
    obtain ⟨ct, st, p, hc'⟩ := hr
    have hop : ¬ op.Locks := by cases op <;> simp [Op.size] at hs <;> exact id
    have hnl : (Prog.step a again k).NoLock := h.noLock hc hst (by
      rw [hc] at hc'; simp only [Option.some.injEq] at hc'; rw [hc']; exact hop)
    cases a <;> simp only [BlockOK] at hok
    · exact hI.cap_progress hp (o := .acquire) (nested := fun _ _ => True) hc hok
    · exact (hnl.1 _ _ _ _ _ rfl).elim
  · exact ⟨c, op, n, hr, hs, hb⟩

/-- **C08.** Under every fair scheduling, growth calls and all other calls that do not lock elements (`len`, `get`,
`iter`, `slice`, …) end, even if new calls are made forever. -/
theorem C08_growth_returns (hm : InitMem m l) {κ : Nat → Cfg α β} (h : InfExec m l κ) (hf : Fair κ)
    (hp : ∀ t, (κ t).GrowthIntact) {t : Nat} {c : Cid} {op : Op α β} (hc : (κ t).Called c op) (hop : ¬ op.Locks) :
    ∃ t', (∃ x, (κ t').Returned c op x) ∨ (∃ k, (κ t').Panicked c op k) := by
  obtain ⟨t', ⟨op', ct, st, s⟩, x, hc', he⟩ := h.noLock_ends hm hf.except .empty hp id hop hc
  have : op' = op := by
    have h1 : (κ (max t t')).Called c op := (h.exec _).called_mono hm (Nat.le_max_left t t') (Nat.le_refl _) hc
    have h2 : (κ (max t t')).Called c op' :=
      (h.exec _).called_mono hm (Nat.le_max_right t t') (Nat.le_refl _) ⟨ct, st, s, hc'⟩
    exact h1.unique h2
  subst this
  cases s with
  | running p => cases he
  | done x et fin => exact ⟨t', .inl ⟨x, ct, st, et, fin, hc'⟩⟩
  | panicked k et fin => exact ⟨t', .inr ⟨k, ct, st, et, fin, hc'⟩⟩

/-- **C08, C22 (partial).** Under every fair scheduling in which only finitely many calls are made, there is a moment
from which on no call is running: all growth calls, reads, iterations and element operations end. Missing for the
full statement: infinitely many calls. There, calls that lock elements may wait forever, see `C22_starvation`. -/
theorem C22_all_end_partial (hm : InitMem m l) {κ : Nat → Cfg α β} (h : InfExec m l κ) (hf : Fair κ)
    (hN : FinitelyManyCalls κ) (hp : ∀ t, (κ t).GrowthIntact) (hsw : ∀ t c op, (κ t).Called c op → op.SwapsUp) :
    ∃ T, ∀ t, T ≤ t → (κ t).Idle := h.all_end hm hf hN hp hsw

/-! ## C22 -/

/-- **C22.** If no swap was called with `i ≥ j`, unfinished calls are never stuck: some unfinished call can make a step
that changes something. -/
theorem C22_not_stuck (hm : InitMem m l) {κ : Cfg α β} (h : Reach m l κ) (hp : κ.GrowthIntact)
    (hsw : ∀ c op, κ.Called c op → op.SwapsUp) : ¬ κ.Stuck := by
  rintro ⟨hidle, hall⟩
  unfold Cfg.Idle at hidle
  simp only [not_forall, Classical.not_not] at hidle
  obtain ⟨c, op, ct, st, p, hc⟩ := hidle
  obtain ⟨d, op', h1, h2⟩ := (h.inv hm).progress hp (fun c op hc => (hsw c op hc).ordered) κ.w.spec.len c
    (hall c op ⟨ct, st, p, hc⟩) (fun _ _ _ _ i _ _ _ _ _ _ _ => Nat.le_add_right _ _)
  exact h2 (hall d op' h1)

section examples
open Demo

/-- Two pushes that must grow, a read and a swap, interleaved; everything ends. -/
def Demo.mixed : List (Choice Nat Nat) :=
  [.call (.push 7), .call (.push 8), .call (.swap .spinning 0 1), .call (.getCloned 1)] ++ go 1 1 ++ go 2 2 ++ go 3 6 ++
  go 4 2 ++ go 2 3 ++ go 1 9 ++ go 3 11 ++ go 4 5 ++ go 2 8

theorem Demo.mixed_possible : Possible [10, 20] 2 8 mixed := by unfold Possible; rfl

theorem Demo.mixed_idle : (after [10, 20] 2 8 mixed).Idle :=
  idle_of (by decide) (by decide) (reach_after mixed_possible) rfl

/-- The hypotheses of `C08_growth_returns` and `C22_all_end_partial` are met. -/
example : InfExec (mem [10, 20] 2 8) [10, 20] (forever [10, 20] 2 8 mixed) ∧ Fair (forever [10, 20] 2 8 mixed) ∧
    FinitelyManyCalls (forever [10, 20] 2 8 mixed) ∧ (∀ t, (forever [10, 20] 2 8 mixed t).GrowthIntact) ∧
    (∀ t c op, (forever [10, 20] 2 8 mixed t).Called c op → op.SwapsUp) ∧
    (forever [10, 20] 2 8 mixed 2).Called 2 (.push 8) := by
  refine ⟨infExec_forever mixed_possible mixed_idle rfl,
    fair_forever (by decide) (by decide) mixed_possible mixed_idle rfl,
    finite_forever (by decide) (by decide) mixed_possible, ?_, ?_, ?_⟩
  · intro t
    exact .of_no_panic fun c op k hk => intact_of (by decide) (by decide) (reach_after mixed_possible) rfl
      (panicked_forever (by decide) (by decide) mixed_possible hk)
  · intro t c op hc
    have := called_of (by decide) (by decide) (reach_after mixed_possible)
      (ops := [.push 7, .push 8, .swap .spinning 0 1, .getCloned 1]) rfl
      (called_forever (by decide) (by decide) mixed_possible hc)
    simp only [List.mem_cons, List.not_mem_nil, or_false] at this
    rcases this with rfl | rfl | rfl | rfl
    · trivial
    · trivial
    · show 0 < 1; decide
    · trivial
  · rw [forever_le (by decide)]
    exact ⟨_, _, _, rfl⟩

/-- Call 2 has to wait for call 1 to grow the storage: a moment at which a growth call is unfinished and blocked. -/
def Demo.waiting : List (Choice Nat Nat) := [.call (.push 7), .call (.push 8)] ++ go 1 1 ++ go 2 3

example : Possible [10, 20] 2 8 waiting ∧ (after [10, 20] 2 8 waiting).GrowthIntact ∧
    (after [10, 20] 2 8 waiting).Running 2 (.push 8) ∧ (after [10, 20] 2 8 waiting).Blocked 2 := by
  have hposs : Possible [10, 20] 2 8 waiting := by unfold Possible; rfl
  refine ⟨hposs, .of_no_panic fun c op k hk => intact_of (by decide) (by decide) (reach_after hposs) rfl hk,
    ⟨_, _, _, rfl⟩, ?_⟩
  refine ⟨⟨_, _, _, _, rfl⟩, ?_⟩
  rintro κ' ⟨r, hc, hcase⟩
  have hr : some r = (after [10, 20] 2 8 waiting).calls 2 := hc.symm
  obtain rfl : r = _ := Option.some.inj (hr.trans rfl)
  rcases hcase with ⟨a, again, k, w', b, h1, h2, rfl⟩ | ⟨x, h1, -⟩ | ⟨x, h1, -⟩
  · cases h1
    simp only [World.exec, Act.exec, Option.some.injEq, Prod.mk.injEq] at h2
    obtain ⟨rfl, rfl⟩ := h2
    exact ⟨rfl, rfl⟩
  · cases h1
  · cases h1

end examples

/-- **C22.** Two concurrent swaps with opposite index order can block each other forever: there is a reachable moment
from which on, whatever happens, both are unfinished. (`ConcurrentOption::mut_handle` taken to be blocking.) -/
theorem C22_opposite_swaps_deadlock : ∃ κ : Cfg Nat Nat, Reach (Demo.mem [10, 20] 2 8) [10, 20] κ ∧ ∀ κ', κ.Leads κ' →
    κ'.Running 1 (.swap .spinning 0 1) ∧ κ'.Running 2 (.swap .spinning 1 0) := by
  have hposs : Demo.Possible [10, 20] 2 8 ([.call (.swap .spinning 0 1), .call (.swap .spinning 1 0)] ++ Demo.go 1 11 ++
    Demo.go 2 11) := by unfold Demo.Possible; rfl
  have hre := Demo.reach_after hposs
  refine ⟨_, hre, fun κ' hl => ?_⟩
  have := Cfg.Leads.wait_pair (Demo.mem_init [10, 20] 2 8 (by decide) (by decide)) hre (c := 1) (d := 2) (i := 0) (j := 1)
    ⟨rfl, _, _, _, _, rfl, rfl⟩ ⟨rfl, _, _, _, _, rfl, rfl⟩ rfl rfl hl
  exact ⟨this.1.running, this.2.1.running⟩

/-! ## C21 -/

/-- **C21 is false.** `swap(i, i)` with `i` in bounds never returns (and never panics), even if it is the only call:
at every later moment of every execution it is still running. (`mut_handle` taken to be blocking.) -/
theorem C21_self_swap_hangs {n : Nat} {κ : Nat → Cfg α β} (hm : InitMem m l) (h : Exec m l n κ) {c : Cid} {i : Nat}
    {mem : Mem α} (hc : (κ n).Called c (.swap .spinning i i)) (ha : (κ n).Alone c) (hs : (κ n).AtStart c mem)
    (hin : ∀ k, k ≤ i → (mem.content k).isSome) : (κ n).Running c (.swap .spinning i i) := by
  obtain ⟨ct, st, s, hc⟩ := hc
  cases s with
  | running p => exact ⟨ct, st, p, hc⟩
  | done x et fin =>
    have hr : (κ n).Returned c (.swap .spinning i i) x := ⟨ct, st, et, fin, hc⟩
    have := C20_in_bounds_alone hm h hr ha hs (fun k hk => hin k (by omega))
    subst this
    exact absurd rfl (C20_atomic hm h (op := .swap _ i i) (i := i) (j := i) ⟨rfl, rfl⟩ hr).1
  | panicked k et fin =>
    obtain ⟨U, d, hi⟩ := (h.inv hm (Nat.le_refl n)).panicked hc
    exact hi.out.elim

/-- **C21 is false.** In the other reading of `mut_handle` (a single attempt), `swap(i, i)` never returns `true`. -/
theorem C21_self_swap_never_true {n : Nat} {κ : Nat → Cfg α β} (hm : InitMem m l) (h : Exec m l n κ) {c : Cid}
    {mode : MutMode} {i : Nat} : ¬ (κ n).Returned c (.swap mode i i) (.bool true) :=
  fun hr => (C20_atomic hm h (op := .swap _ i i) (i := i) (j := i) ⟨rfl, rfl⟩ hr).1 rfl

/-- A call that overlaps with no other call, does not grow and is not a swap of a position with itself does not wait. -/
theorem CfgInv.alone_not_blocked {κ : Cfg α β} (h : CfgInv (.ofList l) κ) {c : Cid} {op : Op α β} (hc : κ.Called c op)
    (ha : κ.Alone c) (hns : op.NoSelf) (hsz : op.size = none) : ¬ κ.Blocked c := by
  intro hb
  obtain ⟨r, a, again, k, b, hc', hr, he, hag, hok⟩ := h.blocked_iff.1 hb
  obtain ⟨ct, st, s, hc⟩ := hc
  rw [hc] at hc'
  simp only [Option.some.injEq] at hc'
  subst hc'
  cases a <;> simp only [BlockOK] at hok
  · obtain ⟨-, -, i, h1, h2, h3, h4⟩ := hok
    have hlen : l.length ≤ i := Nat.le_of_lt (Nat.lt_of_le_of_lt h.len0_cap h1)
    obtain ⟨b, n, hres, -, -⟩ := Legal.owner_reserved h.inv.legal (i := i) (by rw [← h.inv.spec_eq]; exact h2) hlen
    rw [← h.inv.spec_eq, h4] at hres
    obtain ⟨op', hc2, hs2⟩ := h.reserve_call hres
    have := Cfg.Called.unique (op := op) ⟨ct, st, s, hc⟩ hc2
    subst this
    rw [hs2] at hsz; cases hsz
  · rename_i i _ _ _ _
    obtain ⟨h1, -, h3⟩ := hok
    obtain ⟨d, hd⟩ := Option.isSome_iff_exists.1 ((h.inv.lock i).1 h1)
    have hne : d ≠ c := by rintro rfl; exact hns.nested (h3 i hd)
    obtain ⟨rd, p, hcd, hrd⟩ := h.holder hd
    simp only at hr
    subst hr
    refine ha d hne ⟨⟨_, hc⟩, ⟨rd, hcd⟩, ?_, ?_⟩
    · rintro ⟨r1, r2, g1, g2, t, f, g3, -⟩
      rw [hc] at g1
      simp only [Option.some.injEq] at g1
      subst g1
      cases g3
    · rintro ⟨r1, r2, g1, g2, t, f, g3, -⟩
      rw [hcd] at g1
      simp only [Option.some.injEq] at g1
      subst g1
      rw [hrd] at g3; cases g3

/-- **C21 (partial).** If `i ≠ j` are in bounds and `swap(i, j)` overlaps with no other call, it returns `true`. Missing
for the full statement: `i = j`, for which it is false (`C21_self_swap_hangs`), and concurrent calls, see
`C20_false_only_partial` and `C22_all_end_partial`. -/
theorem C21_swap_returns_true_partial {κ : Nat → Cfg α β} (hm : InitMem m l) (h : InfExec m l κ) (hf : Fair κ) {c : Cid}
    {i j t0 : Nat} {mem : Mem α} (hne : i ≠ j) (hc : (κ t0).Called c (.swap .spinning i j)) (ha : ∀ t, (κ t).Alone c)
    (hs : (κ t0).AtStart c mem) (hin : ∀ k, k ≤ i ∨ k ≤ j → (mem.content k).isSome) :
    ∃ t, (κ t).Returned c (.swap .spinning i j) (.bool true) := by
  have hcall : ∀ t, t0 ≤ t → (κ t).Called c (.swap .spinning i j) := fun t ht =>
    (h.exec t).called_mono hm ht (Nat.le_refl _) hc
  have hnb : ∀ t, ¬ (κ t).Blocked c := by
    intro t hb
    rcases Nat.lt_or_ge t t0 with hlt | hge
    · have : (κ t).Called c (.swap .spinning i j) := by
        obtain ⟨⟨op, ct, st, p, hcr⟩, -⟩ := hb
        have h1 : (κ t).Called c op := ⟨ct, st, _, hcr⟩
        have h2 := (h.exec t0).called_mono hm (by omega : t ≤ t0) (Nat.le_refl _) h1
        have := Cfg.Called.unique hc h2
        subst this
        exact h1
      exact (h.inv hm t).alone_not_blocked this (ha t) hne rfl hb
    · exact (h.inv hm t).alone_not_blocked (hcall t hge) (ha t) hne rfl hb
  obtain ⟨t', r', x, hc', he⟩ := h.unblocked_ends hm hf hc hnb
  have hc2 := h.ended_mono hm (Nat.le_max_right t0 t') hc' he
  obtain ⟨ct, st, s, hc3⟩ := hcall (max t0 t') (Nat.le_max_left _ _)
  have hs3 : (κ (max t0 t')).AtStart c mem := by
    obtain ⟨r0, hr0, rfl⟩ := hs
    obtain ⟨r1, k1, -, -, k2, -⟩ := (h.exec (max t0 t')).rec_mono hm hr0 (Nat.le_max_left t0 t') (Nat.le_refl _)
    exact ⟨r1, k1, by rw [k2]⟩
  rw [hc2] at hc3
  simp only [Option.some.injEq] at hc3
  subst hc3
  cases s with
  | running p => cases he
  | done x et fin =>
    have hr : (κ (max t0 t')).Returned c (.swap .spinning i j) x := ⟨ct, st, et, fin, hc2⟩
    have := C20_in_bounds_alone hm (h.exec _) hr (ha _) hs3 hin
    subst this
    exact ⟨_, hr⟩
  | panicked k et fin =>
    obtain ⟨U, d, hi⟩ := (h.inv hm (max t0 t')).panicked hc2
    exact hi.out.elim

/-! ## C24, C43 -/

/-- The position at which the storage has to grow next belongs to a growth call that is over: then the capacity never
changes again, and no growth call invoked later (for at least one position) ever returns. -/
theorem C24_lost_position {n : Nat} {κ : Nat → Cfg α β} (hm : InitMem m l) (h : Exec m l n κ) {s : Nat} (hs : s ≤ n)
    {c : Cid} {b k et : Nat} (hr : Received κ s c b k) (he : (κ s).EndedAt c et) (h1 : b ≤ (κ s).w.mem.cap)
    (h2 : (κ s).w.mem.cap < b + k) :
    (κ n).w.mem.cap = (κ s).w.mem.cap ∧
    ∀ d op x sz, (∀ op', ¬ (κ s).Called d op') → op.size = some sz → 0 < sz → ¬ (κ n).Returned d op x := by
  have hres := (h.prefix hs).received_iff hm |>.1 hr
  obtain ⟨r, fin, hc, hend⟩ := he
  have hI := h.inv hm hs
  obtain ⟨b', n', hres2, hb1, hb2⟩ := Legal.owner_reserved hI.inv.legal (i := (κ s).w.mem.cap)
    (by have := (hI.inv.legal.reserve_ge hres).2; omega) hI.len0_cap
  have ho := hI.inv.legal.reserve_inj hres2 hres ⟨hb1, hb2⟩ ⟨h1, h2⟩
  rw [← hI.inv.spec_eq] at ho
  refine Cfg.Leads.lost hm (h.reach hs) hc hend ?_ ho (h.leads hs (Nat.le_refl n))
  have := (hI.inv.legal.reserve_ge hres).2
  rw [← hI.inv.spec_eq] at this
  omega

/-- **C24 is false.** One panicking closure of `push_for_idx` can disable the vector: here the capacity is 2 and both
positions are in use; the closure panics for position 2. No later growth call (for at least one position) ever returns,
whatever happens. The panic itself is one the caller is allowed to cause and to catch. -/
theorem C24_negation : ∃ κ : Cfg Nat Nat, Reach (Demo.mem [10, 20] 2 8) [10, 20] κ ∧ κ.Idle ∧
    κ.Panicked 1 (.pushForIdx fun _ => none) .userCode ∧
    ∀ κ', κ.Leads κ' → ∀ d op x sz, 1 < d → op.size = some sz → 0 < sz → ¬ κ'.Returned d op x := by
  have hposs : Demo.Possible [10, 20] 2 8 ([.call (.pushForIdx fun _ => none)] ++ Demo.go 1 2) := by
    unfold Demo.Possible; rfl
  have hre := Demo.reach_after hposs
  refine ⟨_, hre, Demo.idle_of (by decide) (by decide) hre rfl, Demo.panicked_of rfl rfl, fun κ' hl d op x sz hd => ?_⟩
  refine (Cfg.Leads.lost (Demo.mem_init [10, 20] 2 8 (by decide) (by decide)) hre (c := 1) rfl rfl
    (by decide) rfl hl).2 d op x sz ?_
  rintro op' ⟨ct, st, s, hc⟩
  have := Demo.known (by decide) (by decide) hre hc
  exact Nat.not_lt.2 hd (List.mem_range.1 this)

/-- **C24 (partial).** While nothing has happened that could have lost the position at which the storage has to grow
next (`GrowthIntact`; in particular if no closure of `push_for_idx` panicked and the maximum capacity was not raised
after it was exceeded), every growth call ends, whatever other calls panicked. Missing for the full statement: panics of
`push_for_idx` closures at positions that are not yet allocated, for which it is false (`C24_negation`). -/
theorem C24_survives_partial {κ : Nat → Cfg α β} (hm : InitMem m l) (h : InfExec m l κ) (hf : Fair κ)
    (hg : ∀ t, (κ t).GrowthIntact) {t0 : Nat} {c : Cid} {op : Op α β} {sz : Nat} (hc : (κ t0).Called c op)
    (hsz : op.size = some sz) : ∃ t, (∃ b, (κ t).Returned c op (.nat b)) ∨
      ∃ k, (κ t).Panicked c op k ∧ op.MayPanic k := by
  obtain ⟨t, hx | hx⟩ := C08_growth_returns hm h hf hg hc (by cases op <;> simp [Op.size] at hsz <;> exact id)
  · obtain ⟨x, hx⟩ := hx
    obtain ⟨b, vs, rfl, -⟩ := (h.inv hm t).retGrowth hx hsz
    exact ⟨t, .inl ⟨b, hx⟩⟩
  · obtain ⟨k, hx⟩ := hx
    exact ⟨t, .inr ⟨k, hx, C42_documented_panics hm ((h.exec t).reach (Nat.le_refl t)) hx⟩⟩

/-- **C43 is false.** Whenever no call is running and `len_reserved` exceeds the capacity, growth is over for good: no
later growth call (for at least one position) returns, whatever is reserved. -/
theorem C43_overrun_is_final (hm : InitMem m l) {κ κ' : Cfg α β} (h : Reach m l κ) (hi : κ.Idle)
    (ho : κ.w.mem.cap < κ.w.mem.reserved) (hl : κ.Leads κ') {d : Cid} {op : Op α β} {x : Ret α β} {sz : Nat}
    (hd : ∀ op', ¬ κ.Called d op') (hsz : op.size = some sz) (hpos : 0 < sz) : ¬ κ'.Returned d op x := by
  have hI := h.inv hm
  rw [hI.inv.len_eq] at ho
  obtain ⟨b, n, hres, -, -⟩ := Legal.owner_reserved hI.inv.legal (i := κ.w.mem.cap)
    (by rw [← hI.inv.spec_eq]; exact ho) hI.len0_cap
  rw [← hI.inv.spec_eq] at hres
  obtain ⟨op', ⟨ct, st, s, hc⟩, -⟩ := hI.reserve_call hres
  cases s with
  | running p => exact absurd hc (hi _ _ _ _ _)
  | done y et fin => exact (Cfg.Leads.lost hm h hc rfl ho rfl hl).2 d op x sz hd hsz hpos
  | panicked y et fin => exact (Cfg.Leads.lost hm h hc rfl ho rfl hl).2 d op x sz hd hsz hpos

/-- The range of a growth call that failed because of the maximum capacity ends behind the maximum capacity. -/
theorem Reach.behind_max (hm : InitMem m l) {κ : Cfg α β} (h : Reach m l κ) {c : Cid} {opc : Op α β}
    {mem : Mem α} (hp : κ.Panicked c opc .maxCapacity) (he : κ.AtEnd c mem) : mem.maxCap < κ.w.mem.reserved := by
  obtain ⟨n, f, hex, hf⟩ := h.exec
  have hI := h.inv hm
  have hp' : (f n).Panicked c opc .maxCapacity := by rw [hf]; exact hp
  obtain ⟨b, k, k1, k2, k3, -⟩ := C09_writes_nothing hm hex hp'
  have hpan := (C09_panics_iff hm hex k1 k2 (by obtain ⟨ct, st, et, fin, hc⟩ := hp'; exact ⟨ct, st, _, hc⟩) k3
    (by rw [hf]; exact he) (by
      rintro g rfl hg
      have hev : Ev.reserve c b k ∈ dataOf c (f n).w.trace := mem_dataOf.2 ⟨(hex.received_iff hm).1 k3, rfl, rfl⟩
      obtain ⟨ct, st, et, fin, hc⟩ := hp'
      obtain ⟨U, dd, hinf⟩ := (hex.inv hm (Nat.le_refl n)).panicked hc
      obtain ⟨i, -, hd1, -, h7⟩ := hinf.out
      have h8 := mem_resv.2 hev
      rw [hinf.data, hd1] at h8
      simp only [List.filterMap_cons, resv_reserve, List.filterMap_nil, List.mem_singleton, Prod.mk.injEq,
        true_and] at h8
      obtain ⟨rfl, -⟩ := h8
      rcases h7 with ⟨-, -, h9⟩ | ⟨h9, -⟩
      · exact h9 hg
      · cases h9)).1 hp'
  have hres := hI.inv.legal.reserve_ge (by rw [← hf]; exact (hex.received_iff hm).1 k3)
  rw [← hI.inv.spec_eq, ← hI.inv.len_eq] at hres
  omega

/-- If a growth call failed because of the maximum capacity then, from then on, `len_reserved` exceeds the maximum
capacity, or the position at which the storage would have to grow is lost. -/
theorem Reach.overrun (hm : InitMem m l) {κ : Cfg α β} (h : Reach m l κ) {c : Cid} {opc : Op α β}
    (hp : κ.Panicked c opc .maxCapacity) : κ.w.mem.maxCap < κ.w.mem.reserved ∨
      ∃ d r x, κ.calls d = some r ∧ r.status.ended = some x ∧ κ.w.mem.cap < κ.w.spec.len ∧
        κ.w.spec.owner κ.w.mem.cap = d := by
  induction h with
  | init => obtain ⟨ct, st, et, fin, hc⟩ := hp; simp [Cfg.init] at hc
  | @step κ κ' hre hs ih =>
    have hI := hre.inv hm
    have hI' := (hre.step hs).inv hm
    have hev := hI.step_evolves hs
    by_cases hold : κ.Panicked c opc .maxCapacity
    · rcases ih hold with h1 | ⟨d, r, x, h1, h2, h3, h4⟩
      · have hlen := hev.len
        rw [← hI.inv.len_eq, ← hI'.inv.len_eq] at hlen
        by_cases heq : κ'.w.mem.maxCap = κ.w.mem.maxCap
        · exact .inl (by omega)
        · right
          have hidle : κ.Idle := by
            cases hs with
            | reserveMax n hidle => exact hidle
            | invoke op hn hp => exact absurd rfl heq
            | ret d rd y hd hrd => exact absurd rfl heq
            | panic d rd y hd hrd => exact absurd rfl heq
            | ub d rd a again k hd hrd he => exact absurd hI'.noUB (by simp)
            | act d rd a again k w' b hd hrd he =>
              obtain ⟨hsafe, -⟩ := hI.running hd hrd
              obtain ⟨hpre, -⟩ := hsafe _ hI.inv (.refl _ _)
              have hpre' : Pre rd.op.raw d κ.w a := hpre
              exact absurd ((exec_inv hI.inv hpre' he).2 (d + 1) (by simp)).maxCap heq
          have hcm := κ.w.mem.pol.good_le hI.inv.good
          have hlt : κ.w.mem.cap < κ.w.spec.len := by rw [← hI.inv.len_eq]; omega
          obtain ⟨b, n, hres, -, -⟩ := Legal.owner_reserved hI.inv.legal (i := κ.w.mem.cap)
            (by rw [← hI.inv.spec_eq]; exact hlt) hI.len0_cap
          rw [← hI.inv.spec_eq] at hres
          obtain ⟨op', ⟨ct, st, s, hc⟩, -⟩ := hI.reserve_call hres
          have key : ∀ x, s.ended = some x → ∃ d r x, κ'.calls d = some r ∧ r.status.ended = some x ∧
              κ'.w.mem.cap < κ'.w.spec.len ∧ κ'.w.spec.owner κ'.w.mem.cap = d := by
            intro x hx
            obtain ⟨r', g1, g2⟩ := hI.step_rec hs hc
            rw [g2.ended x hx] at g1
            have hcap := (Cfg.Leads.lost hm hre hc hx hlt rfl (.step .refl hs)).1
            refine ⟨_, _, x, g1, hx, ?_, ?_⟩
            · rw [hcap]; exact Nat.lt_of_lt_of_le hlt hev.len
            · rw [hcap]; exact hev.owner _ hlt
          cases s with
          | running p => exact absurd hc (hidle _ _ _ _ _)
          | done y et fin => exact key _ rfl
          | panicked y et fin => exact key _ rfl
      · right
        obtain ⟨r', g1, g2⟩ := hI.step_rec hs h1
        rw [g2.ended x h2] at g1
        have hcap := (Cfg.Leads.lost hm hre h1 h2 h3 h4 (.step .refl hs)).1
        refine ⟨d, r, x, g1, h2, ?_, ?_⟩
        · rw [hcap]; exact Nat.lt_of_lt_of_le h3 hev.len
        · rw [hcap, hev.owner _ h3]; exact h4
    · left
      have hp0 := hp
      obtain ⟨ct, st, et, fin, hc⟩ := hp
      refine (hre.step hs).behind_max hm hp0 ⟨_, et, fin, hc, rfl, ?_⟩
      have hcons : ¬ κ.calls c = some ⟨opc, ct, st, .panicked .maxCapacity et fin⟩ := fun h => hold ⟨_, _, _, _, h⟩
      cases hs with
      | reserveMax n hidle => exact absurd hc hcons
      | invoke op hn hp =>
        simp only [upd_apply] at hc
        split at hc
        · cases hc
        · exact absurd hc hcons
      | ub d rd a again k hd hrd he => exact absurd hc hcons
      | act d rd a again k w' b hd hrd he =>
        rcases setStatus_cases hc with ⟨-, h1⟩ | ⟨-, h1⟩
        · cases h1
        · exact absurd h1 hcons
      | ret d rd y hd hrd =>
        rcases setStatus_cases hc with ⟨-, h1⟩ | ⟨-, h1⟩
        · cases h1
        · exact absurd h1 hcons
      | panic d rd y hd hrd =>
        rcases setStatus_cases hc with ⟨-, h1⟩ | ⟨-, h1⟩
        · cases h1; rfl
        · exact absurd h1 hcons

/-- **C43 is false**, always: if a growth call failed because of the maximum capacity, then once no call is running, no later
growth call (for at least one position) returns, however much the maximum capacity was or is raised. -/
theorem C43_always (hm : InitMem m l) {κ κ' : Cfg α β} (h : Reach m l κ) (hi : κ.Idle) {c : Cid} {opc : Op α β}
    (hp : κ.Panicked c opc .maxCapacity) (hl : κ.Leads κ') {d : Cid} {op : Op α β} {x : Ret α β} {sz : Nat}
    (hd : ∀ op', ¬ κ.Called d op') (hsz : op.size = some sz) (hpos : 0 < sz) : ¬ κ'.Returned d op x := by
  have hI := h.inv hm
  refine C43_overrun_is_final hm h hi ?_ hl hd hsz hpos
  have hcm := κ.w.mem.pol.good_le hI.inv.good
  rcases h.overrun hm hp with h1 | ⟨e, r, y, -, -, h1, -⟩
  · omega
  · rw [hI.inv.len_eq]; exact h1

/-- **C43 is false.** After a growth call failed because of the maximum capacity and its panic was caught, raising the
maximum capacity does not help: no later growth call (for at least one position) ever returns. -/
theorem C43_negation : ∃ κ κ2 : Cfg Nat Nat, Reach (Demo.mem [10, 20] 2 2) [10, 20] κ ∧ κ.Idle ∧
    κ.Panicked 1 (.push 7) .maxCapacity ∧ Step κ κ2 ∧ κ2.w.mem.maxCap = 10 ∧
    ∀ κ', κ2.Leads κ' → ∀ d op x sz, 1 < d → op.size = some sz → 0 < sz → ¬ κ'.Returned d op x := by
  have hposs : Demo.Possible [10, 20] 2 2 ([.call (.push 7)] ++ Demo.go 1 3) := by
    unfold Demo.Possible; rfl
  have hre := Demo.reach_after hposs
  have hidle := Demo.idle_of (by decide) (by decide) hre rfl
  have hs := Step.reserveMax _ 10 hidle
  have hre2 := hre.step hs
  refine ⟨_, _, hre, hidle, Demo.panicked_of rfl rfl, hs, rfl, fun κ' hl d op x sz hd => ?_⟩
  refine (Cfg.Leads.lost (Demo.mem_init [10, 20] 2 2 (by decide) (by decide)) hre2 (c := 1) rfl rfl
    (by decide) rfl hl).2 d op x sz ?_
  rintro op' ⟨ct, st, s, hc⟩
  have := Demo.known (by decide) (by decide) hre hc
  exact Nat.not_lt.2 hd (List.mem_range.1 this)

section examples
open Demo

/-- `swap(0, 0)` after it has locked position 0: the hypotheses of `C21_self_swap_hangs`. -/
def Demo.selfSwap : List (Choice Nat Nat) := [.call (.swap .spinning 0 0)] ++ go 1 11

example : Possible [10, 20] 2 8 selfSwap ∧ (after [10, 20] 2 8 selfSwap).Called 1 (.swap .spinning 0 0) ∧
    (after [10, 20] 2 8 selfSwap).Alone 1 ∧ (after [10, 20] 2 8 selfSwap).AtStart 1 (mem [10, 20] 2 8) ∧
    ∀ k, k ≤ 0 → ((mem [10, 20] 2 8).content k).isSome := by
  have hposs : Possible [10, 20] 2 8 selfSwap := by unfold Possible; rfl
  refine ⟨hposs, ⟨_, _, _, rfl⟩, ?_, ⟨_, rfl, rfl⟩, ?_⟩
  · rintro d hd ⟨-, ⟨r, hr⟩, -⟩
    have := known (by decide) (by decide) (reach_after hposs) hr
    have h2 : d < 2 := List.mem_range.1 this
    have h4 : 0 < d := (((reach_after hposs).inv (mem_init _ _ _ (by decide) (by decide))).next d _ hr).1
    exact hd (Nat.le_antisymm (Nat.le_of_lt_succ h2) h4)
  · intro k hk
    obtain rfl : k = 0 := by omega
    rfl

/-- `swap(0, 1)` alone: the hypotheses of `C21_swap_returns_true_partial`. -/
def Demo.oneSwap : List (Choice Nat Nat) := [.call (.swap .spinning 0 1)] ++ go 1 16

example : InfExec (mem [10, 20] 2 8) [10, 20] (forever [10, 20] 2 8 oneSwap) ∧ Fair (forever [10, 20] 2 8 oneSwap) ∧
    (forever [10, 20] 2 8 oneSwap 1).Called 1 (.swap .spinning 0 1) ∧
    (∀ t, (forever [10, 20] 2 8 oneSwap t).Alone 1) ∧
    (forever [10, 20] 2 8 oneSwap 1).AtStart 1 (mem [10, 20] 2 8) ∧
    ∀ k, k ≤ 0 ∨ k ≤ 1 → ((mem [10, 20] 2 8).content k).isSome := by
  have hposs : Possible [10, 20] 2 8 oneSwap := by unfold Possible; rfl
  have hi : (after [10, 20] 2 8 oneSwap).Idle := idle_of (by decide) (by decide) (reach_after hposs) rfl
  refine ⟨infExec_forever hposs hi rfl, fair_forever (by decide) (by decide) hposs hi rfl, ?_, ?_, ?_, ?_⟩
  · rw [forever_le (by decide)]; exact ⟨_, _, _, rfl⟩
  · rintro t d hd ⟨-, ⟨⟨op, ct, st, s⟩, hr⟩, -⟩
    obtain ⟨ct, st, s, hr⟩ := called_forever (by decide) (by decide) hposs (t := t) (c := d) ⟨ct, st, s, hr⟩
    have := known (by decide) (by decide) (reach_after hposs) hr
    have h2 : d < 2 := List.mem_range.1 this
    have h4 : 0 < d := (((reach_after hposs).inv (mem_init _ _ _ (by decide) (by decide))).next d _ hr).1
    exact hd (Nat.le_antisymm (Nat.le_of_lt_succ h2) h4)
  · rw [forever_le (by decide)]; exact ⟨_, rfl, rfl⟩
  · intro k hk
    have : k = 0 ∨ k = 1 := by omega
    rcases this with rfl | rfl <;> rfl

/-- The closure of `push_for_idx` panics at position 2, which is not allocated: the hypotheses of
`C24_lost_position`. -/
def Demo.lostPos : List (Choice Nat Nat) := [.call (.pushForIdx fun _ => none)] ++ go 1 2

example : Possible [10, 20] 2 8 lostPos ∧ Received (fun t => after [10, 20] 2 8 (lostPos.take t)) 3 1 2 1 ∧
    (after [10, 20] 2 8 lostPos).EndedAt 1 2 ∧ (after [10, 20] 2 8 lostPos).w.mem.cap = 2 := by
  refine ⟨by unfold Possible; rfl, ⟨1, .relaxed, by decide, ⟨_, _, _, _, _, rfl⟩, rfl, ?_⟩, ⟨_, _, rfl, rfl⟩, rfl⟩
  rintro ⟨_, _, _, _, _, h1⟩
  cases h1

/-- The closure of `push_for_idx` panics at position 2, which is allocated; later pushes succeed: the hypotheses of
`C24_survives_partial`. -/
def Demo.survives : List (Choice Nat Nat) :=
  [.call (.pushForIdx fun _ => none)] ++ go 1 2 ++ [.call (.push 7), .call (.push 8)] ++ go 2 1 ++ go 3 10 ++ go 2 5

example : InfExec (mem [10, 20] 4 8) [10, 20] (forever [10, 20] 4 8 survives) ∧ Fair (forever [10, 20] 4 8 survives) ∧
    (∀ t, (forever [10, 20] 4 8 survives t).GrowthIntact) ∧
    (forever [10, 20] 4 8 survives 100).Panicked 1 (.pushForIdx fun _ => none) .userCode ∧
    (forever [10, 20] 4 8 survives 100).Called 3 (.push 8) := by
  have hposs : Possible [10, 20] 4 8 survives := by unfold Possible; rfl
  have hi : (after [10, 20] 4 8 survives).Idle := idle_of (by decide) (by decide) (reach_after hposs) rfl
  have hinf := infExec_forever hposs hi rfl
  refine ⟨hinf, fair_forever (by decide) (by decide) hposs hi rfl, ?_, ?_, ?_⟩
  · rintro t c op k m ⟨ct, st, et, fin, hr⟩ ⟨r, t', w, hr', he, rfl⟩
    rw [hr] at hr'
    simp only [Option.some.injEq] at hr'
    subst hr'
    simp only [Status.ended, Option.some.injEq, Prod.mk.injEq] at he
    obtain ⟨rfl, rfl⟩ := he
    have h1 := ended_forever (by decide) (by decide) hposs hr rfl
    have hcap : 4 ≤ (forever [10, 20] 4 8 survives t).w.mem.cap :=
      (hinf.evolves (mem_init [10, 20] 4 8 (by decide) (by decide)) (Nat.zero_le t)).cap
    have h2 : c < 4 := List.mem_range.1 (known (by decide) (by decide) (reach_after hposs) h1)
    have h3 : (after [10, 20] 4 8 survives).panicOf c = some k := by simp [Cfg.panicOf, h1]
    have h4 : c = 1 ∧ k = .userCode := by
      match c, h2, h3 with
      | 0, _, h3 => cases h3.symm.trans (show (after [10, 20] 4 8 survives).panicOf 0 = none from rfl)
      | 1, _, h3 =>
        have : (after [10, 20] 4 8 survives).panicOf 1 = some .userCode := rfl
        rw [this] at h3
        simp only [Option.some.injEq] at h3
        exact ⟨rfl, h3.symm⟩
      | 2, _, h3 => cases h3.symm.trans (show (after [10, 20] 4 8 survives).panicOf 2 = none from rfl)
      | 3, _, h3 => cases h3.symm.trans (show (after [10, 20] 4 8 survives).panicOf 3 = none from rfl)
    obtain ⟨rfl, rfl⟩ := h4
    have h5 : ((after [10, 20] 4 8 survives).calls 1).bind (fun r => r.status.ended.map fun x => x.2.mem.reserved) =
      some 3 := rfl
    rw [h1] at h5
    simp only [Option.bind_some, Status.ended, Option.map_some, Option.some.injEq] at h5
    exact ⟨(fun h => by cases h), fun f _ _ => by omega⟩
  · rw [forever_ge (by decide)]; exact panicked_of rfl rfl
  · rw [forever_ge (by decide)]; exact ⟨_, _, _, rfl⟩

end examples

end Verif
