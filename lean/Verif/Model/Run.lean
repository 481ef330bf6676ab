import Verif.Model.Conc
import Verif.Spec.Calls

/-!
# A scheduler

Executes a given interleaving.  Used to exhibit concrete executions (examples beside the theorems,
counterexamples); no theorem about all executions depends on it.
-/

namespace Verif

variable {α β : Type}

deriving instance DecidableEq for Ret

/-- A scheduling decision. -/
inductive Choice (α β : Type) where
  /-- some thread calls `op` -/
  | call (op : Op α β)
  /-- the running call `c` makes its next step -/
  | go (c : Cid)

namespace Cfg

/-- Decidable form of `Revealed`. -/
def revealedB (κ : Cfg α β) (i : Nat) : Bool :=
  (List.range κ.next).any fun c => match κ.calls c with
    | some ⟨_, _, _, .done r _ _⟩ => r.elements.contains i
    | _ => false

/-- Decidable form of `RevealedPtr`. -/
def revealedPtrB (κ : Cfg α β) (i : Nat) : Bool :=
  (List.range κ.next).any fun c => match κ.calls c with
    | some ⟨_, _, _, .done r _ _⟩ => r.pointers.contains i
    | _ => false

/-- Perform one scheduling decision, if it is possible. -/
def perform (κ : Cfg α β) : Choice α β → Option (Cfg α β)
  | .call op =>
      if (op.needs.all κ.revealedB && op.needsPtr.all κ.revealedPtrB) = true then
        some { κ with
          calls := upd κ.calls κ.next (some ⟨op, κ.clock, κ.w, .running op.prog⟩)
          next := κ.next + 1
          clock := κ.clock + 1 }
      else none
  | .go c =>
      match κ.calls c with
      | none => none
      | some r =>
        match r.status with
        | .done _ _ _ => none
        | .panicked _ _ _ => none
        | .running (.ret x) => some { κ with
            calls := κ.setStatus c r (.done x κ.clock κ.w)
            clock := κ.clock + 1 }
        | .running (.panic k) => some { κ with
            calls := κ.setStatus c r (.panicked k κ.clock κ.w)
            clock := κ.clock + 1 }
        | .running (.step a again k) =>
          match κ.w.exec c a with
          | none => none
          | some (w', b) => some { κ with
              w := w'
              calls := κ.setStatus c r (.running (if again b then .step a again k else k b))
              clock := κ.clock + 1 }

/-- Perform a list of scheduling decisions. -/
def run (κ : Cfg α β) : List (Choice α β) → Option (Cfg α β)
  | [] => some κ
  | ch :: chs =>
    match κ.perform ch with
    | none => none
    | some κ' => κ'.run chs

/-- Result of a call that returned. -/
def result (κ : Cfg α β) (c : Cid) : Option (Ret α β) :=
  match κ.calls c with
  | some ⟨_, _, _, .done r _ _⟩ => some r
  | _ => none

/-- Panic of a call that panicked. -/
def panicOf (κ : Cfg α β) (c : Cid) : Option PanicKind :=
  match κ.calls c with
  | some ⟨_, _, _, .panicked k _ _⟩ => some k
  | _ => none

theorem revealed_of (κ : Cfg α β) {i : Nat} (h : κ.revealedB i = true) : κ.Revealed i := by
  simp only [revealedB, List.any_eq_true] at h
  obtain ⟨c, -, h⟩ := h
  split at h
  · exact ⟨c, _, _, _, _, _, _, by assumption, by simpa using h⟩
  · cases h

theorem revealedPtr_of (κ : Cfg α β) {i : Nat} (h : κ.revealedPtrB i = true) : κ.RevealedPtr i := by
  simp only [revealedPtrB, List.any_eq_true] at h
  obtain ⟨c, -, h⟩ := h
  split at h
  · exact ⟨c, _, _, _, _, _, _, by assumption, by simpa using h⟩
  · cases h

theorem perform_step {κ κ' : Cfg α β} {ch : Choice α β} (h : κ.perform ch = some κ') : Step κ κ' := by
  cases ch with
  | call op =>
    simp only [perform] at h
    split at h
    · rename_i hn
      simp only [Bool.and_eq_true, List.all_eq_true] at hn
      simp only [Option.some.injEq] at h
      subst h
      exact .invoke κ op (fun i hi => κ.revealed_of (hn.1 i hi)) (fun i hi => κ.revealedPtr_of (hn.2 i hi))
    · cases h
  | go c =>
    simp only [perform] at h
    split at h
    · cases h
    · rename_i r hc
      split at h
      · cases h
      · cases h
      · rename_i x hr
        simp only [Option.some.injEq] at h
        subst h
        exact .ret κ c r x hc hr
      · rename_i k hr
        simp only [Option.some.injEq] at h
        subst h
        exact .panic κ c r k hc hr
      · rename_i a again k hr
        split at h
        · cases h
        · rename_i w' b he
          simp only [Option.some.injEq] at h
          subst h
          exact .act κ c r a again k w' b hc hr he

theorem run_append (κ : Cfg α β) (as bs : List (Choice α β)) :
    κ.run (as ++ bs) = (κ.run as).bind (fun κ' => κ'.run bs) := by
  induction as generalizing κ with
  | nil => rfl
  | cons a as ih =>
    simp only [List.cons_append, run]
    split
    · rfl
    · exact ih _

theorem result_returned {κ : Cfg α β} {c : Cid} {x : Ret α β} (h : κ.result c = some x) :
    ∃ op, κ.Returned c op x := by
  unfold result at h
  split at h
  · simp only [Option.some.injEq] at h
    subst h
    exact ⟨_, _, _, _, _, by assumption⟩
  · cases h

end Cfg

/-- What the scheduler reaches is reachable. -/
theorem Reach.of_run {m : Mem α} {l : List α} {κ κ' : Cfg α β} (h : Reach m l κ) :
    ∀ {chs : List (Choice α β)}, κ.run chs = some κ' → Reach m l κ' := by
  intro chs
  induction chs generalizing κ with
  | nil => intro he; simp only [Cfg.run, Option.some.injEq] at he; exact he ▸ h
  | cons ch chs ih =>
    intro he
    simp only [Cfg.run] at he
    split at he
    · cases he
    · exact ih (h.step (Cfg.perform_step (by assumption))) he

/-- The scheduler's run as an execution. -/
theorem Exec.of_run {m : Mem α} {l : List α} {κ : Cfg α β} {chs : List (Choice α β)}
    (h : (Cfg.init m l).run chs = some κ) :
    ∃ f : Nat → Cfg α β, Exec m l chs.length f ∧ f chs.length = κ ∧
      ∀ t, t ≤ chs.length → (Cfg.init m l).run (chs.take t) = some (f t) := by
  have hpre : ∀ t, t ≤ chs.length → ((Cfg.init m l : Cfg α β).run (chs.take t)).isSome := by
    intro t ht
    have := h
    rw [← List.take_append_drop t chs, Cfg.run_append] at this
    rcases hh : (Cfg.init m l : Cfg α β).run (chs.take t) with _ | κ'
    · rw [hh] at this; cases this
    · rfl
  have hf : ∀ t, t ≤ chs.length → (Cfg.init m l : Cfg α β).run (chs.take t) =
      some (((Cfg.init m l : Cfg α β).run (chs.take t)).getD (Cfg.init m l)) := by
    intro t ht
    obtain ⟨κ', hh⟩ := Option.isSome_iff_exists.1 (hpre t ht)
    rw [hh]; rfl
  refine ⟨fun t => ((Cfg.init m l : Cfg α β).run (chs.take t)).getD (Cfg.init m l), ⟨by simp [Cfg.run], ?_⟩, ?_, hf⟩
  · intro t ht
    have h1 := hf t (by omega)
    have h2 := hf (t + 1) (by omega)
    have h3 : chs.take (t + 1) = chs.take t ++ [chs[t]] := by simp
    have h4 : (Cfg.init m l : Cfg α β).run (chs.take (t + 1)) =
        (((Cfg.init m l : Cfg α β).run (chs.take t)).getD (Cfg.init m l)).run [chs[t]] := by
      rw [h3, Cfg.run_append]
      exact (congrArg (fun o => Option.bind o fun κ' : Cfg α β => κ'.run [chs[t]]) h1)
    have h2' := h4.symm.trans h2
    simp only [Cfg.run] at h2'
    split at h2'
    · cases h2'
    · rename_i κ' hp
      simp only [Option.some.injEq] at h2'
      rw [h2'] at hp
      exact Cfg.perform_step hp
  · simp [h]

end Verif
