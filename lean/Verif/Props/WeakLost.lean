import Verif.Weak.Lost
import Verif.Props.Weak
import Verif.Props.DemoWeakInf

/-!
# Positions that nobody will ever allocate, under weak memory: C24, C43, C51

The negations that are proved for interleavings (`C24_lost_position`, `C43_overrun_is_final`, `C51_hangs`) hold under weak memory, too, for all
executions of the weak model that lead on from such a configuration.
-/

namespace Verif

open Weak

variable {α β : Type} {m : Mem α} {l : List α} {κ κ' : Weak.Cfg α β}

/-- **C24 and C43 are false under weak memory, too.** Suppose that no call is running, and a position behind the storage has been handed out
(`len_reserved` exceeds the capacity), for instance because the closure of `push_for_idx` has panicked, or because a call has exceeded the
maximum capacity. Then the storage never grows again, and no growth call (for at least one position) made later ever returns, whatever is
reserved. -/
theorem C43_weak_final (hm : InitMem m l) (h : Weak.Reach m κ) (hi : κ.Idle) (hN : ∃ r ∈ κ.mem.res, κ.mem.alloc < r.val)
    (hl : κ.Leads κ') (hd : κ'.Disciplined) :
    κ'.mem.alloc = κ.mem.alloc ∧ (∀ r ∈ κ'.mem.cap, r.val ≤ κ.mem.alloc) ∧
    ∀ d op x sz, (∀ op', ¬ κ.Called d op') → op.size = some sz → 0 < sz → ¬ κ'.Returned d op x := by
  obtain ⟨K, K0, c, hW, -, hS, -, hB⟩ := Weak.Cfg.Leads.lost (D := modeOf κ' False) hm h hi hN hl
    (fun c op hc => ⟨fun i ⟨c', hc'⟩ => hd c' i hc' c op hc, fun _ he => ⟨c, he ▸ hc⟩, fun h => h.elim, fun _ _ _ => trivial⟩)
  refine ⟨hS.alloc, fun r hr => ?_, fun d op x sz hnd hsz hpos => hS.no_return hW (hB d (not_called hnd)) hsz hpos⟩
  obtain ⟨t, ht⟩ := List.mem_iff_getElem?.1 hr
  exact Nat.le_trans (hW.g.cap_mono.last ht) (Nat.le_of_eq hS.cap)

/-- **C51 is false for `push_for_idx` under weak memory, too.** At moment `s` only call `c` is running, a position behind the storage has been
handed out, and nobody is in the middle of growing the storage. Call `c` waits (in the closure of `push_for_idx`, say) until call `d`, a growth
call made afterwards, has ended. Then `d` never returns. -/
theorem C51_weak_hangs {κ : Nat → Weak.Cfg α β} (hm : InitMem m l) (h : Weak.InfExec m κ) (hd : ∀ t, (κ t).Disciplined) {s : Nat} {c d : Cid}
    (hc : ∀ c' op, (κ s).Running c' op → c' = c) (hcap : ∃ r, (κ s).mem.cap.getLast? = some r ∧ r.val = (κ s).mem.alloc)
    (hN : ∃ r ∈ (κ s).mem.res, (κ s).mem.alloc < r.val) (hnew : ∀ op, ¬ (κ s).Called d op) {op : Op α β} {sz : Nat}
    (hsz : op.size = some sz) (hpos : 0 < sz)
    (hw : ∀ t, s ≤ t → ¬ (κ t).Over d op → (κ (t + 1)).calls c = (κ t).calls c) {t : Nat} {x : Ret α β} : ¬ (κ t).Returned d op x := by
  obtain ⟨r, hr, hv⟩ := hcap
  have hfin := h.frozen (D := ⟨fun e => ∃ s d, (κ s).Called d (.deref e), False, fun _ _ => True⟩) hm (fun t c op hc => by
    refine ⟨fun i ⟨s, d, hd'⟩ => ?_, fun e he => ⟨t, c, he ▸ hc⟩, fun h => h.elim, fun _ _ _ => trivial⟩
    have h1 := h.called (Nat.le_max_left s t) hd'
    have h2 := h.called (Nat.le_max_right s t) hc
    exact hd (max s t) d i h1 c op h2) hc ((lastVal_eq hr).trans hv) hN (not_called hnew) hsz hpos hw (t := t) (x := x)
  rcases Nat.lt_or_ge t s with hlt | hge
  · intro hret
    obtain ⟨q, hq, ho, -⟩ := hret
    exact hnew op (h.called (Nat.le_of_lt hlt) ⟨q, hq, ho⟩)
  · exact hfin hge

section examples

namespace Weak.Show

/-- `[10, 20]` with capacity 2: the closure of `push_for_idx` panics. -/
def lostPosition : List (Choice Nat Nat) := [.call (.pushForIdx fun _ => none) []] ++ go 1 2

theorem lostPosition_possible : Possible [10, 20] 2 8 lostPosition := by unfold Possible; rfl

/-- The same vector: call 1 is in the closure of `push_for_idx`, call 2 is made there; it waits for the storage. -/
def inClosure : List (Choice Nat Nat) := [.call (.pushForIdx fun _ => some 7) []] ++ go 1 1 ++ [.call (.push 8) []] ++ go 2 9

theorem inClosure_possible : Possible [10, 20] 2 8 inClosure := by unfold Possible; rfl

end Weak.Show

open Weak.Show

/-- **C24 is false under weak memory, too**, concretely: capacity 2, both positions are in use, and the closure of `push_for_idx` panics for
position 2. No later growth call ever returns, whatever happens. -/
theorem C24_weak_negation : ∃ κ : Weak.Cfg Nat Nat, Weak.Reach (Demo.mem [10, 20] 2 8) κ ∧ κ.Idle ∧
    κ.Panicked 1 (.pushForIdx fun _ => none) .userCode ∧
    ∀ κ', κ.Leads κ' → κ'.Disciplined → ∀ d op x sz, 1 < d → op.size = some sz → 0 < sz → ¬ κ'.Returned d op x := by
  have hre := reach_after lostPosition_possible
  refine ⟨_, hre, idle_of hre rfl, Cfg.panicked_of rfl rfl, fun κ' hl hd d op x sz h1 hsz hpos => ?_⟩
  refine (C43_weak_final Show.init hre (idle_of hre rfl) ⟨⟨3, _, _⟩, List.mem_cons_of_mem _ (List.mem_singleton.2 rfl), by decide⟩ hl hd).2.2
    d op x sz ?_ hsz hpos
  rintro op' ⟨r, hc, -⟩
  rw [hre.new d h1] at hc
  cases hc

/-- **C51 is false for `push_for_idx` under weak memory, too**, concretely: `vec.push_for_idx(|_| { vec.push(8); 7 })` on a vector of two
elements with capacity 2 never returns: if the closure waits until the inner `push` has ended, the inner `push` never returns. -/
theorem C51_weak_negation : ∃ κ₀ : Weak.Cfg Nat Nat, Weak.Reach (Demo.mem [10, 20] 2 8) κ₀ ∧
    κ₀.Running 1 (.pushForIdx fun _ => some 7) ∧ (∀ op, ¬ κ₀.Called 2 op) ∧
    ∀ κ, Weak.InfExec (Demo.mem [10, 20] 2 8) κ → (∀ t, (κ t).Disciplined) → ∀ s, κ s = κ₀ →
      (∀ t, s ≤ t → ¬ (κ t).Over 2 (.push 8) → (κ (t + 1)).calls 1 = (κ t).calls 1) → ∀ t x, ¬ (κ t).Returned 2 (.push 8) x := by
  have hposs : Possible [10, 20] 2 8 ([.call (.pushForIdx fun _ => some 7) []] ++ Show.go 1 1) := by unfold Possible; rfl
  have hre := reach_after hposs
  have hnew : ∀ op, ¬ (Show.after [10, 20] 2 8 ([.call (.pushForIdx fun _ => some 7) []] ++ Show.go 1 1)).Called 2 op := by
    rintro op ⟨r, hc, -⟩
    cases hc
  refine ⟨_, hre, ⟨_, _, rfl, rfl, rfl⟩, hnew, fun κ h hd s hs hw t x => ?_⟩
  refine C51_weak_hangs Show.init h hd (s := s) (c := 1) (d := 2) (sz := 1) ?_ ?_ ?_ (by rw [hs]; exact hnew) rfl Nat.one_pos hw
  · rintro c op ⟨r, p, hc, -⟩
    rw [hs] at hc
    have hlt : c < 2 := Nat.lt_of_not_le fun hle => by rw [hre.new c hle] at hc; cases hc
    match c, hlt with
    | 0, _ => cases hc
    | 1, _ => rfl
  · rw [hs]; exact ⟨_, rfl, rfl⟩
  · rw [hs]; exact ⟨⟨3, _, _⟩, List.mem_cons_of_mem _ (List.mem_singleton.2 rfl), by decide⟩

/-- The hypotheses of `C51_weak_negation` are met: call 2 is running forever. -/
example : Weak.InfExec (Demo.mem [10, 20] 2 8) (lasting [10, 20] 2 8 inClosure) ∧
    lasting [10, 20] 2 8 inClosure 2 = Show.after [10, 20] 2 8 ([.call (.pushForIdx fun _ => some 7) []] ++ Show.go 1 1) ∧
    (Show.after [10, 20] 2 8 inClosure).Running 2 (.push 8) ∧
    ∀ t, 2 ≤ t → (lasting [10, 20] 2 8 inClosure (t + 1)).calls 1 = (lasting [10, 20] 2 8 inClosure t).calls 1 := by
  refine ⟨lasting_inf inClosure_possible, rfl, ⟨_, _, rfl, rfl, rfl⟩, fun t ht => ?_⟩
  by_cases h : 12 ≤ t
  · rw [lasting_end (chs := inClosure) (t := t) h, lasting_end (chs := inClosure) (t := t + 1) (Nat.le_succ_of_le h)]
  · have : t = 2 ∨ t = 3 ∨ t = 4 ∨ t = 5 ∨ t = 6 ∨ t = 7 ∨ t = 8 ∨ t = 9 ∨ t = 10 ∨ t = 11 := by omega
    rcases this with rfl | rfl | rfl | rfl | rfl | rfl | rfl | rfl | rfl | rfl <;> rfl

end examples

end Verif
