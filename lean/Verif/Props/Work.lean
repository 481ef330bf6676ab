import Mathlib.Tactic.IntervalCases
import Mathlib.Order.Interval.Finset.Nat
import Verif.Proof.WorkExec
import Verif.Props.Starvation

/-!
# C57: how much a call does, and which calls never wait
-/

namespace Verif

variable {α β : Type} {m : Mem α} {l : List α} {n : Nat} {κ : Nat → Cfg α β}

/-- **C57: a bound for every call.** In every execution, whatever the other calls do: apart from waiting, call `c` makes at most
`op.work known cap` accesses to shared memory, plus the step with which it ends. Here `cap` is the capacity at the end of the
execution and `known` is the length at the beginning or any length that a call reported which was over before `c` began (so that `len` need
not count these elements again). -/
theorem C57_work (h : Exec m l n κ) (hm : InitMem m l) {c : Cid} {op : Op α β} (hc : (κ n).Called c op) {known : Nat}
    (hk : known = l.length ∨ ∃ d op' x, (κ n).Before d c ∧ (κ n).Returned d op' x ∧ op'.ReportsLen known x)
    (ts : Finset Nat) (hts : ∀ t ∈ ts, t < n ∧ Progresses κ c t) : ts.card ≤ op.work known (κ n).w.mem.cap + 1 :=
  h.count hm hc hk ts hts

/-- **C57: no waiting.** A call of a function that neither accesses values through elements nor grows the vector gets ahead with
every step it is given; so it ends within the bound of `C57_work`, even if all other calls have stopped in the middle. -/
theorem C57_wait_free (h : Exec m l n κ) (hm : InitMem m l) {c : Cid} {op : Op α β} (hc : (κ n).Called c op)
    (hop : ¬ op.MayWait) :
    (∀ t, t < n → (κ t).Moves c (κ (t + 1)) → Progresses κ c t) ∧
    ∀ {known : Nat}, (known = l.length ∨ ∃ d op' x, (κ n).Before d c ∧ (κ n).Returned d op' x ∧ op'.ReportsLen known x) →
      ∀ ts : Finset Nat, (∀ t ∈ ts, t < n ∧ (κ t).Moves c (κ (t + 1))) → ts.card ≤ op.work known (κ n).w.mem.cap + 1 :=
  ⟨fun _ ht hmv => h.moves_progress hm hc hop ht hmv,
   fun hk ts hts => h.count hm hc hk ts fun t ht => ⟨(hts t ht).1, h.moves_progress hm hc hop (hts t ht).1 (hts t ht).2⟩⟩

/-- **C57: nothing but waiting can take forever.** In an infinite execution, however the vector grows meanwhile, every call
gets ahead only finitely often, and a call of a function that does not wait makes only finitely many steps. -/
theorem C57_finite (h : InfExec m l κ) (hm : InitMem m l) (c : Cid) :
    {t | Progresses κ c t}.Finite ∧
    ∀ t op, (κ t).Called c op → ¬ op.MayWait → {t | (κ t).Moves c (κ (t + 1))}.Finite := by
  refine ⟨h.finite hm c, fun t op hc hop => (h.finite hm c).subset fun s hs => ?_⟩
  have hcall : (κ (max t (s + 1))).Called c op := (h.exec _).called_mono hm (Nat.le_max_left t (s + 1)) (Nat.le_refl _) hc
  exact (h.exec _).moves_progress hm hcall hop (by omega) hs

/-! ## Examples -/

namespace Demo

/-- Where a call stands: what it will do next, or that it is over. -/
def stands : Option (Rec Nat Nat) → Nat
  | none => 0
  | some r => match r.status with
    | .running (.step (.writtenLoad _) _ _) => 1
    | .running (.step (.resLoad _) _ _) => 2
    | .running (.step (.capLoad _) _ _) => 3
    | .running (.step (.writtenFetchMax _ _) _ _) => 4
    | .running (.step (.stLoad i _) _ _) => 10 + i
    | .running (.step _ _ _) => 5
    | .running _ => 6
    | _ => 7

theorem progresses_of {κ : Nat → Cfg Nat Nat} {c : Cid} {t : Nat}
    (h : stands ((κ t).calls c) ≠ 0 ∧ stands ((κ t).calls c) ≠ 7 ∧ stands ((κ (t + 1)).calls c) ≠ stands ((κ t).calls c)) :
    Progresses κ c t := by
  obtain ⟨h0, h7, hne⟩ := h
  refine ⟨?_, fun he => hne (by rw [he])⟩
  rcases hc : (κ t).calls c with _ | ⟨op, ct, st, s⟩
  · rw [hc] at h0; exact absurd rfl h0
  · cases s with
    | running p => exact ⟨op, ct, st, p, hc⟩
    | done x e f => rw [hc] at h7; exact absurd rfl h7
    | panicked x e f => rw [hc] at h7; exact absurd rfl h7

/-- A `push`, then `len` twice, while an `extend` has stopped for good after reserving three positions. -/
def counting : List (Choice Nat Nat) :=
  [.call (.push 7)] ++ go 1 6 ++ [.call (.extend (.ofList [1, 2, 3]))] ++ go 2 1 ++ [.call .len] ++ go 3 6 ++ [.call .len] ++ go 4 5

theorem counting_possible : Possible [] 1 8 counting := by unfold Possible; rfl

/-- The execution. -/
def countingExec (t : Nat) : Cfg Nat Nat := after [] 1 8 (counting.take t)

theorem countingExec_ok : Exec (mem [] 1 8) [] 22 countingExec := exec_after counting_possible

theorem counting_init : InitMem (mem [] 1 8) [] := mem_init [] 1 8 (by decide) (by decide)

theorem first_len : (countingExec 22).Called 3 .len := ⟨_, _, _, rfl⟩

theorem second_len : (countingExec 22).Called 4 .len := ⟨_, _, _, rfl⟩

theorem counting_known : (countingExec 22).Before 3 4 ∧ (countingExec 22).Returned 3 .len (.nat 1) :=
  ⟨before_of (t := 15) (u := 16) rfl rfl (by decide), returned_of rfl rfl⟩

/-- Both bounds are met exactly: nothing was counted before the first `len`, so it looks at one element; the second `len` need
not look at it again. -/
theorem first_len_moments : ∀ t ∈ Finset.Ico 10 16, t < 22 ∧ Progresses countingExec 3 t := by
  intro t ht
  rw [Finset.mem_Ico] at ht
  obtain ⟨h1, h2⟩ := ht
  refine ⟨by omega, progresses_of ?_⟩
  interval_cases t <;> exact ⟨(by decide), (by decide), (by decide)⟩

theorem second_len_moments : ∀ t ∈ Finset.Ico 17 22, t < 22 ∧ Progresses countingExec 4 t := by
  intro t ht
  rw [Finset.mem_Ico] at ht
  obtain ⟨h1, h2⟩ := ht
  refine ⟨by omega, progresses_of ?_⟩
  interval_cases t <;> exact ⟨(by decide), (by decide), (by decide)⟩

example : (Finset.Ico 10 16).card ≤ (Op.len : Op Nat Nat).work 0 (countingExec 22).w.mem.cap + 1 :=
  C57_work countingExec_ok counting_init first_len (.inl rfl) _ first_len_moments

example : (Finset.Ico 10 16).card = (Op.len : Op Nat Nat).work 0 (countingExec 22).w.mem.cap + 1 := rfl

example : (Finset.Ico 17 22).card ≤ (Op.len : Op Nat Nat).work 1 (countingExec 22).w.mem.cap + 1 :=
  C57_work countingExec_ok counting_init second_len (.inr ⟨3, .len, .nat 1, counting_known.1, counting_known.2, rfl⟩) _
    second_len_moments

example : (Finset.Ico 17 22).card = (Op.len : Op Nat Nat).work 1 (countingExec 22).w.mem.cap + 1 := rfl

/-- `len` is not hindered by the `extend` that has stopped. -/
example : (countingExec 22).Running 2 (.extend (.ofList [1, 2, 3])) ∧ ¬ (Op.len : Op Nat Nat).MayWait ∧
    (∀ t, t < 22 → (countingExec t).Moves 4 (countingExec (t + 1)) → Progresses countingExec 4 t) :=
  ⟨⟨_, _, _, rfl⟩, fun h => h, (C57_wait_free countingExec_ok counting_init second_len (fun h => h)).1⟩

/-- In the execution of `C22_starvation` call 1 makes infinitely many steps, but it gets ahead only finitely often. -/
example : {t | Progresses Starve.exec 1 t}.Finite ∧ ∀ t, ∃ t', t ≤ t' ∧ (Starve.exec t').Moves 1 (Starve.exec (t' + 1)) :=
  ⟨(C57_finite Starve.infExec Starve.init0 1).1, fun t => by
    obtain ⟨t', h1, h2⟩ := Starve.fair (t + 4) 1 _ (Starve.running_one _ (by omega))
    exact ⟨t', by omega, h2⟩⟩

end Demo

end Verif
