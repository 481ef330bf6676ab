import Verif.Weak.Alone
import Verif.Props.Weak
import Verif.Props.DemoWeakAlone

/-!
# One call after the other, under weak memory: C59

Theorems about all executions of the weak memory model (`Weak/Model.lean`) in which, at least from some point on, all calls are
ordered by happens-before.  The results are those of the operations on a plain list (`Spec/ListSpec.lean`), as in C39.
-/

namespace Verif

variable {α β : Type} {m : Mem α} {l : List α} {κ κ0 : Weak.Cfg α β} {V : Weak.View}

open Weak

/-- **C59.** After any concurrent use in which all growth calls returned, somebody who has exclusive access and finds the values `vs` may
use the vector like a list: if from now on (`κ0.next`) one call `ops[k]` is made after the other, each happening before the next, and each
is one a list can follow (`Fits`), then every result is the result of the operation on the list at that time. No call does anything
undefined, also if user code reads through pointers, however they were obtained. No call ever waits: every step of a running call, whatever
it reads, gets it ahead, and it can be run to its end. Who has exclusive access in the end finds the list that the operations leave behind. -/
theorem C59_sequential (hm : InitMem m l) (h : Weak.Reach m κ0) (hd : κ0.Disciplined) (hV : κ0.Exclusive V)
    (hall : ∀ c op k, κ0.Called c op → op.size = some k → ∃ x, κ0.Returned c op x) {M : Mem α} (hM : κ0.Observes V M) {vs : List α}
    (hvs : M.Holds vs) (hl : κ0.Leads κ) (ht : κ.InTurn κ0.next) {ops : List (Op α β)}
    (hops : ∀ (k : Nat) op, κ.Called (κ0.next + k) op ↔ ops[k]? = some op)
    (hfit : ∀ (k : Nat) op, ops[k]? = some op → op.Fits (contentAfter vs (ops.take k)) M.maxCap) :
    (∀ (k : Nat) op x, κ.Returned (κ0.next + k) op x → op.Gives (contentAfter vs (ops.take k)) (.ok x)) ∧
    (∀ (k : Nat) op p, κ.Panicked (κ0.next + k) op p → op.Gives (contentAfter vs (ops.take k)) (.error p)) ∧
    κ.bad = none ∧
    (∀ c op, κ.Running c op → (∃ κ', κ.Moves c κ') ∧ (∀ κ', κ.Moves c κ' → κ.Advances c κ') ∧ ∃ κ', κ.Runs κ' ∧ κ'.Over c op) ∧
    ∀ V' M', κ.Exclusive V' → κ.Observes V' M' →
      M'.Holds (contentAfter vs ops) ∧ M'.toVec = some (.ok (contentAfter vs ops)) := by
  have hs := (hV.complete h).observes hM
  subst hs
  have hS0 : SInv κ0.next κ0.mem.maxCap vs ops κ0 := .start (D := modeOf κ0 False) hm h
    (fun c op hc => ⟨fun i ⟨c', hc'⟩ => hd c' i hc' c op hc, fun _ he => ⟨c, he ▸ hc⟩, fun h => h.elim, fun _ _ _ => trivial⟩) hV hall hvs
  have hr := Leads.reach h hl
  have hS := hS0.leads h hl (fun k op => (hops k op).1) hfit ht
  refine ⟨?_, ?_, hS.bad, fun c op hc => ⟨(hS.moves hr hc).1, (hS.moves hr hc).2, ?_⟩, fun V' M' hV' hM' => ?_⟩
  · rintro k op x ⟨r, h1, rfl, h2⟩
    exact hS.done k r x h1 h2
  · rintro k op x ⟨r, h1, rfl, h2⟩
    exact hS.panicked k r x h1 h2
  · obtain ⟨r, p, hc, rfl, hp⟩ := hc
    obtain ⟨κ', h1, -, -, -, h2⟩ := SInv.finishes hfit p hS hr (fun k op => (hops k op).1) ht hc hp
    exact ⟨κ', h1, h2⟩
  · have hs := (hV'.complete hr).observes hM'
    subst hs
    rcases hS.state with ⟨-, h1⟩ | ⟨k, r, p, -, h2, -, h3, -⟩
    · have hle : ops.length ≤ κ.next - κ0.next := by
        refine Nat.le_of_not_lt fun hlt => ?_
        obtain ⟨r, hc, -⟩ := (hops (κ.next - κ0.next) _).2 (List.getElem?_eq_getElem hlt)
        rw [hr.new _ (by rw [Nat.add_sub_cancel' hS.le])] at hc
        cases hc
      rw [List.take_of_length_le hle] at h1
      exact ⟨h1.holds, h1.toVec⟩
    · exact absurd ⟨r, p, h2, rfl, h3⟩ (hV'.idle _ r.op)

/-- Concurrent growth (`Show.κ`), then one thread joins all the others and pushes (which grows the storage), swaps the elements 0 and 2, takes a
pointer to element 0 with a relaxed load, reads through it, and clones element 2: `C59_sequential` applies, the results are `7`, `true`, the
pointer, `1`, and `10`. `Disciplined` does not hold, because the element that is read through a pointer is swapped before. -/
example : Show.κ.Exclusive (Show.owner Show.κ) ∧ Show.κ.Leads Show.μ ∧ Show.μ.InTurn Show.κ.next ∧
    (∀ (k : Nat) op, Show.μ.Called (Show.κ.next + k) op ↔ Show.later[k]? = some op) ∧
    (∀ M, Show.κ.Observes (Show.owner Show.κ) M → M.Holds [10, 20, 1, 2, 3, 7, 9] ∧ M.maxCap = 8) ∧
    (∀ (k : Nat) op, Show.later[k]? = some op → op.Fits (contentAfter [10, 20, 1, 2, 3, 7, 9] (Show.later.take k)) 8) ∧
    Show.μ.result 10 = some (.nat 7) ∧ Show.μ.result 11 = some (.bool true) ∧ Show.μ.result 13 = some (.val 1) ∧
    Show.μ.result 14 = some (.optVal (some 10)) ∧ ¬ Show.μ.Disciplined := by
  refine ⟨Show.κ_exclusive, Show.μ_leads, Show.inTurn_of Show.μ_reach rfl, Show.called_iff Show.μ_reach rfl rfl, fun M hM => ?_,
    Show.later_fits, rfl, rfl, rfl, rfl, fun hd => ?_⟩
  · rw [(Show.κ_exclusive.complete Show.reach).observes hM]
    exact ⟨Show.κ_holds, rfl⟩
  · exact (hd 13 0 ⟨_, rfl, rfl⟩ 11 _ ⟨_, rfl, rfl⟩).1 (.inl rfl)

theorem Weak.leads_init (h : Weak.Reach m κ) : (Weak.Cfg.init m : Weak.Cfg α β).Leads κ := by
  induction h with
  | init => exact .refl
  | step _ hs ih => exact ih.step hs

/-- **C59.** A vector that is used by one thread only (or by several threads, one after the other, with synchronisation in between) behaves
like a list: the special case of `C59_sequential` with no concurrent use before. -/
theorem C59_one_thread (hm : InitMem m l) (h : Weak.Reach m κ) (ht : κ.InTurn 1) {ops : List (Op α β)}
    (hops : ∀ (k : Nat) op, κ.Called (1 + k) op ↔ ops[k]? = some op)
    (hfit : ∀ (k : Nat) op, ops[k]? = some op → op.Fits (contentAfter l (ops.take k)) m.maxCap) :
    (∀ (k : Nat) op x, κ.Returned (1 + k) op x → op.Gives (contentAfter l (ops.take k)) (.ok x)) ∧
    (∀ (k : Nat) op p, κ.Panicked (1 + k) op p → op.Gives (contentAfter l (ops.take k)) (.error p)) ∧
    κ.bad = none ∧
    (∀ c op, κ.Running c op → (∃ κ', κ.Moves c κ') ∧ (∀ κ', κ.Moves c κ' → κ.Advances c κ') ∧ ∃ κ', κ.Runs κ' ∧ κ'.Over c op) ∧
    ∀ V' M', κ.Exclusive V' → κ.Observes V' M' →
      M'.Holds (contentAfter l ops) ∧ M'.toVec = some (.ok (contentAfter l ops)) := by
  refine C59_sequential (κ0 := Weak.Cfg.init m) (V := .bot) (M := m) hm .init ?_ ⟨[], .nil, ?_⟩ ?_ ?_ hm.rep.holds (leads_init h) ht hops hfit
  · rintro c e ⟨r, hc, -⟩; cases hc
  · intro c r hc; cases hc
  · rintro c op k ⟨r, hc, -⟩; cases hc
  · exact ⟨⟨0, _, Nat.le_refl _, rfl, rfl⟩, ⟨0, _, Nat.le_refl _, rfl, rfl⟩, ⟨0, _, Nat.le_refl _, rfl, rfl⟩,
      fun i => ⟨0, _, Nat.le_refl _, rfl, rfl⟩, rfl, hm.alloc, hm.growing, rfl, rfl⟩

/-- One thread uses `[10, 20]`: it pushes (which grows the storage), swaps, and fills with a closure that panics at the third
position; it is in the middle of a `clone_to_vec`. -/
example : Weak.Reach (Demo.mem [10, 20] 2 8) Show.θ ∧ Show.θ.InTurn 1 ∧
    (∀ (k : Nat) op, Show.θ.Called (1 + k) op ↔ Show.four[k]? = some op) ∧
    (∀ (k : Nat) op, Show.four[k]? = some op → op.Fits (contentAfter [10, 20] (Show.four.take k)) 8) ∧
    Show.θ.result 1 = some (.nat 2) ∧ Show.θ.result 2 = some (.bool true) ∧ Show.θ.panicOf 3 = some .userCode ∧
    Show.θ.Running 4 .cloneToVec ∧ contentAfter [10, 20] Show.four = [0, 1, 10] :=
  ⟨Show.θ_reach, Show.inTurn_of Show.θ_reach rfl, Show.called_iff Show.θ_reach rfl rfl, Show.four_fits, rfl, rfl, rfl,
    ⟨_, _, rfl, rfl, rfl⟩, rfl⟩

end Verif
