import Verif.Props.Reentrant
import Verif.Props.StrongFair

/-!
# Elements are locked independently: C52

Which elements a call locks and waits for, and whom a call that stays inside an element (code of the caller in the closure
of `map` or `update`, say) can hinder.
-/

namespace Verif

variable {α β : Type} {m : Mem α} {l : List α}

/-- **C52.** A call locks only elements that it uses. -/
theorem C52_locks_used {κ : Cfg α β} (h : Reach m l κ) {c : Cid} {op : Op α β} (hc : κ.Called c op) {i : Nat}
    {e n : CState} {o f : MOrd} (hn : κ.Next c (.stCas i e n o f)) : op.Uses i := by
  obtain ⟨op', ct, st, again, k, hc'⟩ := hn
  obtain rfl := hc.unique ⟨ct, st, _, hc'⟩
  exact (h.locksIn hc' rfl).1 i e n o f rfl

/-- **C52.** A call that waits is a growth call, or it waits for an element that it uses and that is locked by a running
call which uses it too; this is another call, except in a `swap` of an element with itself. -/
theorem C52_waits {n : Nat} {κ : Nat → Cfg α β} (hm : InitMem m l) (h : Exec m l n κ) {c : Cid} {op : Op α β}
    (hc : (κ n).Called c op) (hb : (κ n).Blocked c) :
    (∃ sz, op.size = some sz) ∨ ∃ i d op', op.Uses i ∧ (κ n).Running d op' ∧ op'.Uses i ∧ HasLocked κ n d i ∧
      (d = c → op.SwapsWith i i) := by
  have hI := h.inv hm (Nat.le_refl n)
  obtain ⟨⟨op1, ct, st, s⟩, a, again, k, b, hc1, hr, he, hag, hok⟩ := hI.blocked_iff.1 hb
  obtain rfl := hc.unique ⟨ct, st, _, hc1⟩
  simp only at hr
  subst hr
  cases a <;> simp only [BlockOK] at hok
  · obtain ⟨-, -, i, h1, h2, -, h4⟩ := hok
    left
    have hl0 := hI.len0_cap
    obtain ⟨b', k', hres, -, -⟩ := Legal.owner_reserved hI.inv.legal (i := i) (by rw [← hI.inv.spec_eq]; exact h2) (by omega)
    rw [← hI.inv.spec_eq, h4] at hres
    obtain ⟨op2, hc2, hsz⟩ := hI.reserve_call hres
    obtain rfl := hc.unique hc2
    exact ⟨_, hsz⟩
  · rename_i i e e' o f
    right
    obtain ⟨h1, -, h3⟩ := hok
    obtain ⟨d, hd⟩ := Option.isSome_iff_exists.1 ((hI.inv.lock i).1 h1)
    obtain ⟨⟨opd, ctd, std, sd⟩, pd, hcd, hrd⟩ := hI.holder hd
    simp only at hrd
    subst hrd
    have hlk := h.hasLocked hm (Nat.le_refl n) hd
    refine ⟨i, d, opd, C52_locks_used (h.reach (Nat.le_refl n)) hc ⟨_, _, _, _, _, hc1⟩, ⟨_, _, _, hcd⟩, ?_, hlk, ?_⟩
    · obtain ⟨u, hu, ⟨o', f', op3, ct3, st3, ag3, k3, hc3⟩, -⟩ := hlk
      have hcall3 : (κ n).Called d op3 := h.called_mono hm (by omega) (Nat.le_refl n) ⟨ct3, st3, _, hc3⟩
      obtain rfl := hcall3.unique ⟨_, _, _, hcd⟩
      exact C52_locks_used (h.reach (by omega : u ≤ n)) ⟨_, _, _, hc3⟩ ⟨_, _, _, _, _, hc3⟩
    · rintro rfl
      exact Op.nested_iff.1 (h3 i hd)

/-- **C52.** Let the calls in `S` not get any further from some moment on (each from its own), for instance because the
code of the caller that they run never returns. Suppose that at that moment the positions they had received were
allocated. Let `E` contain the elements they had locked, and with element `j` of a blocking `swap(i, j)` made by another
call also `i`. Then every call outside `S` that uses no element of `E` ends: growth calls, calls that lock no elements, and
all calls on the other elements. (Scheduling is strongly fair for the calls outside `S`, and their blocking swaps name the
smaller index first.) -/
theorem C52_others_end (hm : InitMem m l) {κ : Nat → Cfg α β} (h : InfExec m l κ) {S : Cid → Prop} {E : Nat → Prop}
    (hf : StronglyFairExcept S κ) (hp : ∀ t, (κ t).GrowthIntact)
    (hS : ∀ c, S c → ∃ T, StalledFrom κ T c ∧ (∀ b k, Received κ T c b k → 0 < k → b + k ≤ (κ T).w.mem.cap) ∧
      ∀ i, HasLocked κ T c i → E i)
    (hE : ∀ t c op i j, ¬ S c → (κ t).Called c op → op.SwapsWith i j → E j → E i)
    (hsw : ∀ t c op, ¬ S c → (κ t).Called c op → op.SwapsUp)
    {t : Nat} {d : Cid} {op : Op α β} (hc : (κ t).Called d op) (hd : ¬ S d) (hu : ∀ i, op.Uses i → ¬ E i) :
    ∃ t', (∃ x, (κ t').Returned d op x) ∨ (∃ k, (κ t').Panicked d op k) := by
  have hhold : HoldOnly S E κ := by
    intro c hcS
    obtain ⟨T, hst, -, hlk⟩ := hS c hcS
    exact ⟨T, fun s hs i hi => hlk i ((h.exec T).hasLocked hm (Nat.le_refl T) (h.frozen_holder hm hst hs hi))⟩
  have hal : Allocated S κ := h.allocated hm fun c hcS => by
    obtain ⟨T, hst, hrec, -⟩ := hS c hcS
    exact ⟨T, hst, hrec⟩
  obtain ⟨t', ⟨op', ct, st, s⟩, x, hc', he⟩ := h.ends_strong hm hf hal hhold hE hp hsw hc hd hu
  have : op' = op := by
    have h1 : (κ (max t t')).Called d op := (h.exec _).called_mono hm (Nat.le_max_left t t') (Nat.le_refl _) hc
    have h2 : (κ (max t t')).Called d op' :=
      (h.exec _).called_mono hm (Nat.le_max_right t t') (Nat.le_refl _) ⟨ct, st, s, hc'⟩
    exact h1.unique h2
  subst this
  cases s with
  | running p => cases he
  | done x et fin => exact ⟨t', .inl ⟨x, ct, st, et, fin, hc'⟩⟩
  | panicked k et fin => exact ⟨t', .inr ⟨k, ct, st, et, fin, hc'⟩⟩

/-- **C52.** In particular: let the calls in `S` be calls that do not grow the vector and that use only elements of `E`, and
let them not get any further from some moment on. If no other call makes a blocking `swap` that uses an element of `E`, then
every other call that uses no element of `E` ends. -/
theorem C52_element (hm : InitMem m l) {κ : Nat → Cfg α β} (h : InfExec m l κ) {S : Cid → Prop} {E : Nat → Prop}
    (hf : StronglyFairExcept S κ) (hp : ∀ t, (κ t).GrowthIntact)
    (hS : ∀ c, S c → ∃ T op, StalledFrom κ T c ∧ (κ T).Called c op ∧ op.size = none ∧ ∀ i, op.Uses i → E i)
    (hE : ∀ t c op i j, ¬ S c → (κ t).Called c op → op.SwapsWith i j → ¬ E j)
    (hsw : ∀ t c op, ¬ S c → (κ t).Called c op → op.SwapsUp)
    {t : Nat} {d : Cid} {op : Op α β} (hc : (κ t).Called d op) (hd : ¬ S d) (hu : ∀ i, op.Uses i → ¬ E i) :
    ∃ t', (∃ x, (κ t').Returned d op x) ∨ (∃ k, (κ t').Panicked d op k) := by
  refine C52_others_end hm h hf hp (fun c hcS => ?_) (fun t c op i j h1 h2 h3 h4 => (hE t c op i j h1 h2 h3 h4).elim) hsw
    hc hd hu
  obtain ⟨T, opc, hst, hcall, hsz, hE'⟩ := hS c hcS
  refine ⟨T, hst, fun b k hr hk => ?_, fun i hl => hE' i ?_⟩
  · obtain ⟨op2, hc2, hs2⟩ := (h.inv hm T).reserve_call (((h.exec T).received_iff hm).1 hr)
    obtain rfl := hcall.unique hc2
    rw [hs2] at hsz; cases hsz
  · obtain ⟨u, hu, ⟨o, f, op3, ct3, st3, ag3, k3, hc3⟩, -⟩ := hl
    have hcall3 : (κ T).Called c op3 := (h.exec T).called_mono hm (by omega) (Nat.le_refl T) ⟨ct3, st3, _, hc3⟩
    obtain rfl := hcall3.unique hcall
    exact C52_locks_used ((h.exec T).reach (by omega : u ≤ T)) ⟨_, _, _, hc3⟩ ⟨_, _, _, _, _, hc3⟩

/-- **C52, the limit.** Call `c` has locked element `i` and waits (in its closure, say) until call `d` has ended, a
method of the same element, called afterwards. Then `d` never returns, so that both hang:
`vec[0].map(|_| vec[0].cloned())`. -/
theorem C52_own_element_hangs {n : Nat} {κ : Nat → Cfg α β} (hm : InitMem m l) (h : Exec m l n κ) {s : Nat} (hs : s ≤ n)
    {c d : Cid} {i : Nat} {op : Op α β} (hl : HasLocked κ s c i) (hd : ∀ op', ¬ (κ s).Called d op')
    (hop : op.MethodOf i)
    (hw : ∀ t, s ≤ t → t < n → (∀ et, ¬ (κ t).EndedAt d et) → (κ (t + 1)).calls c = (κ t).calls c)
    {x : Ret α β} : ¬ (κ n).Returned d op x := by
  intro hret
  have hop1 : ∀ t, t ≤ n → ∀ op', (κ t).Called d op' → op' = op := by
    intro t ht op' hc'
    obtain ⟨ct, st, et, fin, hc⟩ := hret
    exact ((h.called_mono hm ht (Nat.le_refl n) hc').unique ⟨ct, st, _, hc⟩).symm
  have hholds := h.holder_of_locked hm hs hl
  obtain ⟨rc, pc, hrc, -⟩ := (h.inv hm hs).holder hholds
  have key : ∀ t, s ≤ t → t ≤ n → (κ t).w.holder i = some c ∧ (κ t).calls c = some rc ∧
      ∀ r, (κ t).calls d = some r → r.status = .running op.prog := by
    intro t hst
    induction hst with
    | refl => exact fun _ => ⟨hholds, hrc, fun ⟨op', ct, st, s'⟩ hr => (hd op' ⟨ct, st, s', hr⟩).elim⟩
    | @step t hst ih =>
      intro htn
      have hst' : s ≤ t := hst
      obtain ⟨h1, h2, h3⟩ := ih (by omega)
      have h2' : (κ (t + 1)).calls c = some rc := by
        rw [hw t hst' (by omega) ?_, h2]
        rintro et ⟨r, w, hr, he⟩
        rw [h3 r hr] at he; cases he
      have hI := h.inv hm (by omega : t ≤ n)
      refine ⟨((hI.step_frozen (h.next t (by omega)) h2 h2').2.2 i).2 h1, h2', fun r hr => ?_⟩
      rcases hrd : (κ t).calls d with _ | rd
      · obtain ⟨g1, -, -, g4, -⟩ := (h.prefix htn).called_at hm hr
        rcases Nat.lt_or_ge r.callT t with hlt | hge
        · obtain ⟨r', g5, -⟩ := h.rec_mono hm g4 hlt (by omega : t ≤ n)
          rw [hrd] at g5; cases g5
        · rw [show r.callT = t by omega, hr] at g4
          have h5 := congrArg Rec.status (Option.some.inj g4)
          simp only at h5
          obtain rfl := hop1 (t + 1) htn r.op ⟨r.callT, r.start, r.status, hr⟩
          exact h5
      · have hsd := h3 rd hrd
        rcases hI.step_other (h.next t (by omega)) hrd hsd with hmv | ⟨h4, -⟩
        · have hwf : (κ t).WaitsFor d rd i := by
            refine ⟨hrd, ?_⟩
            rw [hsd]
            cases op <;> try exact hop.elim
            all_goals obtain rfl := hop; exact ⟨_, _, _, _, rfl, rfl⟩
          rw [(hwf.moves hI (by rw [h1]; rfl) hmv).2 d, hrd] at hr
          obtain rfl := Option.some.inj hr
          exact hsd
        · rw [h4] at hr
          obtain rfl := Option.some.inj hr
          exact hsd
  obtain ⟨ct, st, et, fin, hc⟩ := hret
  have := (key n hs (Nat.le_refl n)).2.2 _ hc
  cases this

section examples
open Demo

/-- Call 1 (`iter`) hands out the elements. Call 2 is `update` of element 0 and stays in its closure. Call 3 (`cloned` of
element 0) waits for element 0 forever. Call 4 (`swap(1, 2)`) and call 5 (`push`) end. -/
def Demo.inside : List (Choice Nat Nat) :=
  [.call .iter] ++ go 1 5 ++ [.call (.elUpdate (fun v => (v + 1, true)) 0)] ++ go 2 2 ++ [.call (.elCloned 0)] ++ go 3 2 ++
  [.call (.swap .spinning 1 2)] ++ go 4 16 ++ [.call (.push 9)] ++ go 5 10

theorem Demo.inside_possible : Possible [10, 20, 30] 3 8 inside := by unfold Possible; rfl

theorem Demo.inside_inv : CfgInv (.ofList [10, 20, 30]) (after [10, 20, 30] 3 8 inside) :=
  (reach_after inside_possible).inv (mem_init _ _ _ (by decide) (by decide))

/-- The schedule, then call 3 waits forever. -/
theorem Demo.inside_next (n : Nat) :
    Cfg.Moves { after [10, 20, 30] 3 8 inside with clock := (after [10, 20, 30] 3 8 inside).clock + n } 3
      { after [10, 20, 30] 3 8 inside with clock := (after [10, 20, 30] 3 8 inside).clock + n + 1 } :=
  Cfg.WaitsFor.again inside_inv (j := 0) ⟨rfl, _, _, _, _, rfl, rfl⟩ rfl n

theorem Demo.inside_exec : InfExec (mem [10, 20, 30] 3 8) [10, 20, 30] (forever [10, 20, 30] 3 8 inside) := by
  have he := exec_after inside_possible
  refine ⟨by rw [forever_le (Nat.zero_le _)]; exact he.init, fun t => ?_⟩
  rcases Nat.lt_or_ge t inside.length with hlt | hge
  · rw [forever_le (by omega), forever_le (by omega)]
    exact he.next t hlt
  · rw [forever_ge hge, forever_ge (by omega), show t + 1 - inside.length = t - inside.length + 1 by omega]
    exact (inside_next _).step

/-- In the end only the calls 2 and 3 are running. -/
theorem Demo.inside_running {c : Cid} {op : Op Nat Nat} {ct : Nat} {st : World Nat} {p : Prog Nat (Ret Nat Nat)}
    (h : (after [10, 20, 30] 3 8 inside).calls c = some ⟨op, ct, st, .running p⟩) : c = 2 ∨ c = 3 := by
  have hk := known (by decide) (by decide) (reach_after inside_possible) (c := c) h
  have hlt : c < 6 := List.mem_range.1 hk
  match c, hlt with
  | 0, _ => cases h
  | 1, _ => cases h
  | 2, _ => exact .inl rfl
  | 3, _ => exact .inr rfl
  | 4, _ => cases h
  | 5, _ => cases h

theorem Demo.inside_blocked {t : Nat} (ht : inside.length ≤ t) : (forever [10, 20, 30] 3 8 inside t).Blocked 3 := by
  have hI := inside_exec.inv (mem_init _ _ _ (by decide) (by decide)) t
  rw [forever_ge ht] at hI ⊢
  refine ⟨⟨_, _, _, _, rfl⟩, fun κ' hmv => ?_⟩
  have hwf : Cfg.WaitsFor { after [10, 20, 30] 3 8 inside with
      clock := (after [10, 20, 30] 3 8 inside).clock + (t - inside.length) } 3 _ 0 := ⟨rfl, _, _, _, _, rfl, rfl⟩
  have h := hwf.moves hI rfl hmv
  exact ⟨h.2 3, by rw [h.1]⟩

theorem Demo.inside_ops : ∀ c, c < 6 → ∀ op, ((after [10, 20, 30] 3 8 inside).calls c).map Rec.op = some op →
    op = .iter ∨ op = .elUpdate (fun v => (v + 1, true)) 0 ∨ op = .elCloned 0 ∨ op = .swap .spinning 1 2 ∨
      op = .push 9
  | 0, _, _, h => by cases h
  | 1, _, _, h => .inl (Option.some.inj h).symm
  | 2, _, _, h => .inr (.inl (Option.some.inj h).symm)
  | 3, _, _, h => .inr (.inr (.inl (Option.some.inj h).symm))
  | 4, _, _, h => .inr (.inr (.inr (.inl (Option.some.inj h).symm)))
  | 5, _, _, h => .inr (.inr (.inr (.inr (Option.some.inj h).symm)))

theorem Demo.inside_called {t : Nat} {c : Cid} {op : Op Nat Nat} (h : (forever [10, 20, 30] 3 8 inside t).Called c op) :
    op = .iter ∨ op = .elUpdate (fun v => (v + 1, true)) 0 ∨ op = .elCloned 0 ∨ op = .swap .spinning 1 2 ∨
      op = .push 9 := by
  obtain ⟨ct, st, s, h⟩ := called_forever (by decide) (by decide) inside_possible h
  have hk := known (by decide) (by decide) (reach_after inside_possible) (c := c) h
  exact inside_ops c (List.mem_range.1 hk) op (by rw [h]; rfl)

/-- The hypotheses of `C52_element` (and so of `C52_others_end`) are met with `S = {2}` and `E = {0}`, for the calls 4 and
5. -/
example : InfExec (mem [10, 20, 30] 3 8) [10, 20, 30] (forever [10, 20, 30] 3 8 inside) ∧
    StronglyFairExcept (fun c => c = 2) (forever [10, 20, 30] 3 8 inside) ∧
    (∀ t, (forever [10, 20, 30] 3 8 inside t).GrowthIntact) ∧
    StalledFrom (forever [10, 20, 30] 3 8 inside) inside.length 2 ∧
    (forever [10, 20, 30] 3 8 inside inside.length).Running 2 (.elUpdate (fun v => (v + 1, true)) 0) ∧
    HasLocked (forever [10, 20, 30] 3 8 inside) inside.length 2 0 ∧
    (∀ t c op i j, ¬ c = 2 → (forever [10, 20, 30] 3 8 inside t).Called c op → op.SwapsWith i j → ¬ j = 0) ∧
    (∀ t c op, ¬ c = 2 → (forever [10, 20, 30] 3 8 inside t).Called c op → op.SwapsUp) ∧
    (forever [10, 20, 30] 3 8 inside inside.length).Called 4 (.swap .spinning 1 2) ∧
    (forever [10, 20, 30] 3 8 inside inside.length).Called 5 (.push 9) := by
  have hm := mem_init [10, 20, 30] 3 8 (by decide) (by decide)
  refine ⟨inside_exec, ⟨?_, ?_⟩, ?_, ?_, ?_, ?_, ?_, ?_, ?_, ?_⟩
  · rintro t c op hc ⟨ct, st, p, hrun⟩
    rcases inside_exec.stay_or_advance hm hrun rfl with hst | ⟨s, r', hs, -, -, hmv, -⟩
    · have h1 := (hst (max t inside.length) (by omega)).1
      rw [forever_ge (by omega)] at h1
      obtain rfl := (inside_running h1).resolve_left hc
      refine ⟨max t inside.length, by omega, ?_⟩
      rw [forever_ge (by omega), forever_ge (by omega),
        show max t inside.length + 1 - inside.length = max t inside.length - inside.length + 1 by omega]
      exact inside_next _
    · exact ⟨s, hs, hmv⟩
  · intro c hc hinf
    obtain ⟨t', ht', ⟨op, ct, st, p, hrun⟩, hnb⟩ := hinf inside.length
    rw [forever_ge ht'] at hrun
    obtain rfl := (inside_running hrun).resolve_left hc
    exact (hnb (inside_blocked ht')).elim
  · intro t
    exact .of_no_panic fun c op k hk => intact_of (by decide) (by decide) (reach_after inside_possible) rfl
      (panicked_forever (by decide) (by decide) inside_possible hk)
  · intro t ht
    rw [forever_ge ht, forever_ge (Nat.le_refl _)]
  · rw [forever_ge (Nat.le_refl _)]
    exact ⟨_, _, _, rfl⟩
  · refine (inside_exec.exec _).hasLocked hm (Nat.le_refl _) ?_
    rw [forever_ge (Nat.le_refl _)]
    rfl
  · intro t c op i j _ hcall hsw
    rcases inside_called hcall with rfl | rfl | rfl | rfl | rfl <;> try exact hsw.elim
    rw [hsw.2]; decide
  · intro t c op _ hcall
    rcases inside_called hcall with rfl | rfl | rfl | rfl | rfl <;> first | exact trivial | exact Nat.lt_succ_self 1
  · rw [forever_ge (Nat.le_refl _)]
    exact ⟨_, _, _, rfl⟩
  · rw [forever_ge (Nat.le_refl _)]
    exact ⟨_, _, _, rfl⟩

/-- A moment as in `C52_waits` and `C52_locks_used`: call 3 (`cloned` of element 0) waits for element 0, locked by call 2. -/
example : (forever [10, 20, 30] 3 8 inside inside.length).Blocked 3 ∧
    (forever [10, 20, 30] 3 8 inside inside.length).Called 3 (.elCloned 0) ∧
    (forever [10, 20, 30] 3 8 inside inside.length).Next 3 (.stCas 0 .SOME .RESERVED .acquire .relaxed) := by
  refine ⟨inside_blocked (Nat.le_refl _), ?_, ?_⟩
  · rw [forever_ge (Nat.le_refl _)]
    exact ⟨_, _, _, rfl⟩
  · rw [forever_ge (Nat.le_refl _)]
    exact ⟨_, _, _, _, _, rfl⟩

/-- An execution as in `C52_own_element_hangs`: call 2 has locked element 0 (moment 9) and does not get any further, call 3 is
called afterwards. -/
example : ∃ κ : Nat → Cfg Nat Nat, Exec (mem [10, 20, 30] 3 8) [10, 20, 30] 12 κ ∧ HasLocked κ 9 2 0 ∧
    (∀ op, ¬ (κ 9).Called 3 op) ∧ (κ 12).Running 3 (.elCloned 0) ∧
    ∀ t, 9 ≤ t → t < 12 → (κ (t + 1)).calls 2 = (κ t).calls 2 := by
  have hm := mem_init [10, 20, 30] 3 8 (by decide) (by decide)
  refine ⟨_, (inside_exec.exec 12), ?_, ?_, ?_, ?_⟩
  · refine (inside_exec.exec 12).hasLocked hm (by decide) ?_
    rfl
  · rintro op ⟨ct, st, s, hc⟩
    cases hc
  · exact ⟨_, _, _, rfl⟩
  · intro t h1 h2
    match t, h1, h2 with
    | 9, _, _ => rfl
    | 10, _, _ => rfl
    | 11, _, _ => rfl

end examples

end Verif
