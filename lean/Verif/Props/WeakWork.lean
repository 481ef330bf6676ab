import Mathlib.Tactic.IntervalCases
import Mathlib.Order.Interval.Finset.Nat
import Verif.Weak.Work
import Verif.Props.DemoWeakInf
import Verif.Props.WeakProgress

/-!
# C57 under weak memory: how much a call does, and which calls never wait
-/

namespace Verif

variable {α β : Type} {m : Mem α} {l : List α} {n : Nat} {κ : Nat → Weak.Cfg α β}

open Weak

theorem Weak.lastVal_le {h : List (Msg Nat)} {M : Nat} (hM : ∀ q ∈ h, q.val ≤ M) : lastVal h ≤ M := by
  unfold lastVal
  rcases hh : h.getLast? with _ | q
  · exact Nat.zero_le _
  · exact hM q (List.mem_of_getLast? hh)

theorem Weak.le_sum : ∀ {h : List (Msg Nat)} (q : Msg Nat), q ∈ h → q.val ≤ (h.map Msg.val).sum
  | [], _, hq => (by cases hq)
  | r :: h, q, hq => by
    rw [List.map_cons, List.sum_cons]
    rcases List.mem_cons.1 hq with rfl | hq
    · exact Nat.le_add_right _ _
    · exact Nat.le_trans (le_sum q hq) (Nat.le_add_left _ _)

theorem Weak.counted (hm : InitMem m l) (h : Weak.InfExec m κ) (hd : ∀ t, (κ t).Disciplined) {c : Cid} {op : Op α β}
    (hc : (κ n).Called c op) {known : Nat} (hk : (κ n).KnowsLen l c known) {cap : Nat} (hcap : ∀ q ∈ (κ n).mem.cap, q.val ≤ cap)
    {s : Bool} (hs : s = true → ¬ op.MayWait) :
    Counted ⟨fun e => ∃ s d, (κ s).Called d (.deref e), False, fun _ _ => True⟩ m l s known cap op n κ c := by
  have ho : ∀ t c op, (κ t).Called c op → Allowed ⟨fun e => ∃ s d, (κ s).Called d (.deref e), False, fun _ _ => True⟩ op := by
    intro t c op hc
    refine ⟨fun i ⟨s, d, hd'⟩ => ?_, fun e he => ⟨t, c, he ▸ hc⟩, fun h => h.elim, fun _ _ _ => trivial⟩
    exact hd (max s t) d i (h.called (Nat.le_max_left _ _) hd') c op (h.called (Nat.le_max_right _ _) hc)
  obtain ⟨K, K0, -, hgh⟩ := h.ghost (mx := 0) hm ho fun _ _ _ _ => Nat.zero_le _
  exact ⟨h, fun t => ⟨K t, K0 t, (hgh t).1⟩, fun t ht => Nat.le_trans (ghost_cap (fun t => (hgh t).2.2) ht) (lastVal_le hcap), hs, hc, hk⟩

/-- **C57 under weak memory: a bound for every call.** Whatever the other calls do and however stale the messages are that the call
reads: apart from waiting, call `c` makes at most `op.work known cap` accesses to shared memory, plus the step with which it ends. Here
no value of the capacity exceeds `cap`, and `known` is the length at the beginning or any length reported by a call that happened
before `c`. -/
theorem C57_weak_work (hm : InitMem m l) (h : Weak.InfExec m κ) (hd : ∀ t, (κ t).Disciplined) {c : Cid} {op : Op α β}
    (hc : (κ n).Called c op) {known : Nat} (hk : (κ n).KnowsLen l c known) {cap : Nat} (hcap : ∀ q ∈ (κ n).mem.cap, q.val ≤ cap)
    (ts : Finset Nat) (hts : ∀ t ∈ ts, t < n ∧ (κ t).Advances c (κ (t + 1))) : ts.card ≤ op.work known cap + 1 := by
  have hC := counted hm h hd hc hk hcap (s := false) (fun h => Bool.noConfusion h)
  exact hC.from n 0 _ (by omega) hC.zero ts fun t ht => ⟨Nat.zero_le _, hts t ht⟩

/-- **C57 under weak memory: no waiting.** A call of a function that neither accesses values through elements nor grows the vector
gets ahead with every step it is given, whatever messages it reads; so it ends within the bound of `C57_weak_work`. -/
theorem C57_weak_wait_free (hm : InitMem m l) (h : Weak.InfExec m κ) (hd : ∀ t, (κ t).Disciplined) {c : Cid} {op : Op α β}
    (hc : (κ n).Called c op) (hop : ¬ op.MayWait) :
    (∀ t, (κ t).Moves c (κ (t + 1)) → (κ t).Advances c (κ (t + 1))) ∧
    ∀ {known cap : Nat}, (κ n).KnowsLen l c known → (∀ q ∈ (κ n).mem.cap, q.val ≤ cap) →
      ∀ ts : Finset Nat, (∀ t ∈ ts, t < n ∧ (κ t).Moves c (κ (t + 1))) → ts.card ≤ op.work known cap + 1 := by
  have key : ∀ t, (κ t).Moves c (κ (t + 1)) → (κ t).Advances c (κ (t + 1)) := by
    intro t hmv
    have hC := counted (n := max n (t + 1)) hm h hd (h.called (Nat.le_max_left _ _) hc) (.inl rfl)
      (cap := ((κ (max n (t + 1))).mem.cap.map Msg.val).sum) le_sum (s := true) (fun _ => hop)
    exact hC.moves (by omega) hmv
  exact ⟨key, fun hk hcap ts hts => C57_weak_work hm h hd hc hk hcap ts fun t ht => ⟨(hts t ht).1, key t (hts t ht).2⟩⟩

/-- **C57 under weak memory: nothing but waiting can take forever.** Every call gets ahead only finitely often, and a call of a function
that does not wait makes only finitely many steps. -/
theorem C57_weak_finite (hm : InitMem m l) (h : Weak.InfExec m κ) (hd : ∀ t, (κ t).Disciplined) (c : Cid) :
    {t | (κ t).Advances c (κ (t + 1))}.Finite ∧
    ∀ t op, (κ t).Called c op → ¬ op.MayWait → {t | (κ t).Moves c (κ (t + 1))}.Finite :=
  ⟨h.finite c, fun _ _ hc hop => (h.finite c).subset fun s hs => (C57_weak_wait_free hm h hd hc hop).1 s hs⟩

/-! ## Examples -/

namespace Weak.Show

open Verif.Demo (mem mem_init)

/-- Where a call stands: what it will do next, or that it is over. -/
def stands : Option (Rec Nat Nat) → Nat
  | none => 0
  | some r => match r.status with
    | .running (.step (.writtenLoad _) _ _) => 1
    | .running (.step (.resLoad _) _ _) => 2
    | .running (.step (.capLoad _) _ _) => 3
    | .running (.step (.writtenFetchMax _ _) _ _) => 4
    | .running (.step (.stLoad i _) _ _) => 10 + i
    | .running (.step _ _ _) => 5
    | .running _ => 6
    | _ => 7

theorem advances_of {κ κ' : Cfg Nat Nat} {c : Cid} {ch : Option Nat} (h : κ.go c ch = some κ') (hb : κ'.bad = none)
    (hne : stands (κ'.calls c) ≠ stands (κ.calls c)) : κ.Advances c κ' := by
  refine ⟨Cfg.go_moves h hb, fun he => hne ?_⟩
  unfold Cfg.at' at he
  rcases h1 : κ.calls c with _ | r <;> rcases h2 : κ'.calls c with _ | r' <;> rw [h1, h2] at he
  · cases he
  · cases he
  · simp only [Option.map_some, Option.some.injEq] at he
    unfold stands
    simp only [he]

/-- `[10, 20]` with capacity 4: two pushes; a `len` after them; a second `len` after the first; and a third `len` of a thread that
knows nothing of the others, to which the memory shows the first value of `len_written`. -/
def counting : List (Choice Nat Nat) :=
  [.call (.push 7) []] ++ go 1 6 ++ [.call (.push 8) [1]] ++ go 2 6 ++ [.call .len [2]] ++ go 3 7 ++ [.call .len [3]] ++ go 4 5 ++
  [.call .len [], .at 5 0] ++ go 5 6

theorem counting_possible : Possible [10, 20] 4 8 counting := by unfold Possible; rfl

theorem counting_inf : InfExec (mem [10, 20] 4 8) (lasting [10, 20] 4 8 counting) := lasting_inf counting_possible

theorem counting_init : InitMem (mem [10, 20] 4 8) [10, 20] := mem_init _ _ _ (by decide) (by decide)

theorem counting_disciplined : ∀ t, (lasting [10, 20] 4 8 counting t).Disciplined := fun t => by
  refine lasting_disciplined counting_possible (disciplined_of (reach_after counting_possible) fun op hop e => ?_) t
  have : ops (after [10, 20] 4 8 counting) = [.push 7, .push 8, .len, .len, .len] := rfl
  rw [this] at hop
  rintro rfl
  simp at hop

theorem counting_cap : ∀ q ∈ (lasting [10, 20] 4 8 counting 36).mem.cap, q.val ≤ 4 := by
  have : (lasting [10, 20] 4 8 counting 36).mem.cap = [.init 4] := rfl
  intro q hq
  rw [this, List.mem_singleton] at hq
  subst hq
  exact Nat.le_refl _

end Weak.Show

open Weak.Show

theorem Weak.Show.second_len : ∀ t ∈ Finset.Ico 23 28, t < 36 ∧
    (lasting [10, 20] 4 8 counting t).Advances 4 (lasting [10, 20] 4 8 counting (t + 1)) := by
  intro t ht
  rw [Finset.mem_Ico] at ht
  obtain ⟨h1, h2⟩ := ht
  refine ⟨by omega, ?_⟩
  have hp := lasting_perform counting_possible (t := t) (by have : counting.length = 36 := rfl; omega)
  interval_cases t <;> exact advances_of (ch := none) hp rfl (by decide)

theorem Weak.Show.third_len : ∀ t ∈ Finset.Ico 29 36, t < 36 ∧
    (lasting [10, 20] 4 8 counting t).Advances 5 (lasting [10, 20] 4 8 counting (t + 1)) := by
  intro t ht
  rw [Finset.mem_Ico] at ht
  obtain ⟨h1, h2⟩ := ht
  refine ⟨by omega, ?_⟩
  have hp := lasting_perform counting_possible (t := t) (by have : counting.length = 36 := rfl; omega)
  rcases Nat.lt_or_ge 29 t with h3 | h3
  · interval_cases t <;> exact advances_of (ch := none) hp rfl (by decide)
  · have : t = 29 := by omega
    subst this
    exact advances_of (ch := some 0) hp rfl (by decide)

/-- The second `len` happened after the first one, which reported 4: it need not look at any element. -/
example : (Finset.Ico 23 28).card ≤ (Op.len : Op Nat Nat).work 4 4 + 1 :=
  C57_weak_work counting_init counting_inf counting_disciplined (n := 36) ⟨_, rfl, rfl⟩
    (.inr ⟨3, .len, .nat 4, Cfg.hb_of (H := [3]) rfl (by decide), Cfg.returned_of rfl rfl, rfl⟩) counting_cap _ second_len

example : (Finset.Ico 23 28).card = (Op.len : Op Nat Nat).work 4 4 + 1 := rfl

/-- The third one counts the two new elements again; this is the most it can have to do. -/
example : (Finset.Ico 29 36).card ≤ (Op.len : Op Nat Nat).work 2 4 + 1 :=
  C57_weak_work counting_init counting_inf counting_disciplined (n := 36) ⟨_, rfl, rfl⟩ (.inl rfl) counting_cap _ third_len

example : (Finset.Ico 29 36).card = (Op.len : Op Nat Nat).work 2 4 + 1 := rfl

example : ¬ (Op.len : Op Nat Nat).MayWait ∧ ∀ t, (lasting [10, 20] 4 8 counting t).Moves 5 (lasting [10, 20] 4 8 counting (t + 1)) →
    (lasting [10, 20] 4 8 counting t).Advances 5 (lasting [10, 20] 4 8 counting (t + 1)) :=
  ⟨fun h => h, (C57_weak_wait_free counting_init counting_inf counting_disciplined (n := 36) (c := 5) ⟨_, rfl, rfl⟩ (fun h => h)).1⟩

/-- In the execution of `C54_needs_visibility` call 2 reads an outdated capacity forever, but it gets ahead only finitely often. -/
example : {t | (lasting [10, 20] 2 8 stale t).Advances 2 (lasting [10, 20] 2 8 stale (t + 1))}.Finite ∧
    ∀ t, 16 ≤ t → (lasting [10, 20] 2 8 stale t).Moves 2 (lasting [10, 20] 2 8 stale (t + 1)) := by
  have hp : Pushes (after [10, 20] 2 8 stale) := pushes_of (reach_after stale_possible) rfl
  refine ⟨(C57_weak_finite Show.init (lasting_inf stale_possible)
    (fun t => lasting_disciplined stale_possible hp.disciplined t) 2).1, fun t ht => ?_⟩
  rw [lasting_end (show stale.length ≤ t from ht), lasting_end (show stale.length ≤ t + 1 from Nat.le_succ_of_le ht)]
  exact ς_stays

end Verif
