import Verif.Weak.SpecAlone
import Verif.Spec.ListSpec
import Verif.Props.DemoWeakOwner

/-!
# Concrete weak-memory executions with calls one after the other

Shared by the examples beside the properties in `Props/WeakSequential.lean`.
-/

namespace Verif.Weak.Show

open Verif.Demo (mem mem_init)

theorem leads_of {κ κ' : Cfg Nat Nat} {m : Mem Nat} {chs : List (Choice Nat Nat)} (h : Reach m κ) (hr : κ.run chs = some κ') :
    κ.Leads κ' := by
  suffices H : ∀ {κ1 : Cfg Nat Nat}, Reach m κ1 → κ.Leads κ1 → κ1.run chs = some κ' → κ.Leads κ' from H h .refl hr
  clear hr
  induction chs with
  | nil => intro κ1 _ hl hr; cases hr; exact hl
  | cons ch chs ih =>
    intro κ1 h1 hl hr
    simp only [Cfg.run] at hr
    split at hr
    · cases hr
    · next κ2 h2 =>
      have hs := Cfg.perform_step h1.new h2
      exact ih (h1.step hs) (hl.step hs) hr

/-- The calls from `n` on know directly that all calls before happen before. -/
def inTurn (κ : Cfg Nat Nat) (n : Nat) : Bool :=
  (List.range κ.next).all fun d => d < n || match κ.calls d with
    | none => true
    | some r => (List.range d).all fun c => (κ.calls c).isNone || r.hb.contains c

theorem inTurn_of {m : Mem Nat} {κ : Cfg Nat Nat} {n : Nat} (h : Reach m κ) (hi : inTurn κ n = true) : κ.InTurn n := by
  rintro c d op op' ⟨q, hq, -⟩ ⟨r, hr, -⟩ hn hlt
  have hd : d < κ.next := Nat.lt_of_not_le fun hle => by rw [h.new d hle] at hr; cases hr
  have := List.all_eq_true.1 hi d (List.mem_range.2 hd)
  rw [hr, Bool.or_eq_true, decide_eq_true_eq] at this
  rcases this with h1 | h1
  · exact absurd hn (Nat.not_le.2 h1)
  · have := List.all_eq_true.1 h1 c (List.mem_range.2 hlt)
    rw [hq] at this
    exact .one hr (by simpa using this)

theorem called_iff {m : Mem Nat} {κ : Cfg Nat Nat} {n : Nat} {os : List (Op Nat Nat)} (h : Reach m κ) (hn : κ.next = n + os.length)
    (ho : (List.range os.length).map (fun k => (κ.calls (n + k)).map Rec.op) = os.map some) (k : Nat) (op : Op Nat Nat) :
    κ.Called (n + k) op ↔ os[k]? = some op := by
  by_cases hk : k < os.length
  · have hg := congrArg (fun l => l[k]?) ho
    simp only [List.getElem?_map, List.getElem?_range hk, Option.map_some, List.getElem?_eq_getElem hk, Option.some.injEq] at hg
    rw [List.getElem?_eq_getElem hk]
    constructor
    · rintro ⟨r, hr, rfl⟩
      rw [hr] at hg
      exact hg.symm
    · intro he
      rw [he] at hg
      obtain ⟨r, h1, h2⟩ := Option.map_eq_some_iff.1 hg
      exact ⟨r, h1, h2⟩
  · rw [List.getElem?_eq_none (by omega)]
    refine ⟨fun ⟨r, hr, _⟩ => ?_, fun h => by cases h⟩
    rw [h.new _ (by rw [hn]; exact Nat.add_le_add_left (Nat.not_lt.1 hk) n)] at hr
    cases hr

/-- What a thread does after it has joined all the others. -/
def later : List (Op Nat Nat) := [.push 4, .swap .spinning 0 2, .getRaw .relaxed 0, .deref 0, .getCloned 2]

/-- The calls of `later`, as they follow `growth`. -/
def joined : List (Choice Nat Nat) :=
  [.call (.push 4) (List.range' 1 9)] ++ go 10 10 ++ [.call (.swap .spinning 0 2) (List.range' 1 10)] ++ go 11 17 ++
  [.call (.getRaw .relaxed 0) (List.range' 1 11)] ++ go 12 5 ++ [.call (.deref 0) (List.range' 1 12)] ++ go 13 2 ++
  [.call (.getCloned 2) (List.range' 1 13)] ++ go 14 7

/-- The execution `growth`, then `joined`. -/
def μ : Cfg Nat Nat := (κ.run joined).getD κ

theorem μ_run : κ.run joined = some μ := by
  have : (κ.run joined).isSome = true := rfl
  unfold μ
  rcases hh : κ.run joined with _ | κ'
  · rw [hh] at this; cases this
  · rfl

theorem μ_reach : Reach (mem [10, 20] 2 8) μ := Cfg.reach_of_run reach μ_run

theorem μ_leads : κ.Leads μ := leads_of reach μ_run

theorem κ_holds : κ.mem.settled.Holds [10, 20, 1, 2, 3, 7, 9] := by
  intro i
  rcases i with _ | _ | _ | _ | _ | _ | _ | i <;> rfl

theorem later_fits (k : Nat) (op : Op Nat Nat) (h : later[k]? = some op) :
    op.Fits (contentAfter [10, 20, 1, 2, 3, 7, 9] (later.take k)) 8 := by
  rcases k with _ | _ | _ | _ | _ | k <;> cases h
  · exact Nat.le_refl 8
  · exact fun _ => by decide
  all_goals trivial

/-- What one thread does. -/
def four : List (Op Nat Nat) :=
  [.push 7, .swap .spinning 0 2, .fillWith fun i => if i < 2 then some i else none, .cloneToVec]

/-- The calls of `four`; the last one does not end. -/
def single : List (Choice Nat Nat) :=
  [.call (.push 7) []] ++ go 1 10 ++ [.call (.swap .spinning 0 2) [1]] ++ go 2 17 ++
  [.call (.fillWith fun i => if i < 2 then some i else none) [1, 2]] ++ go 3 11 ++ [.call .cloneToVec [1, 2, 3]] ++ go 4 4

theorem single_possible : Possible [10, 20] 2 8 single := by unfold Possible; rfl

/-- The execution `single`. -/
def θ : Cfg Nat Nat := after [10, 20] 2 8 single

theorem θ_reach : Reach (mem [10, 20] 2 8) θ := reach_after single_possible

theorem four_fits (k : Nat) (op : Op Nat Nat) (h : four[k]? = some op) : op.Fits (contentAfter [10, 20] (four.take k)) 8 := by
  rcases k with _ | _ | _ | _ | k <;> cases h
  · show 3 ≤ 8; decide
  · exact fun _ => by decide
  all_goals trivial

end Verif.Weak.Show
