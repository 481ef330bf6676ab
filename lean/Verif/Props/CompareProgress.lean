import Verif.Proof.CompareStrong
import Verif.Props.Compare
import Verif.Props.DemoCompareInf

/-!
# C56: do comparisons come to an end?

The full statement, that every comparison comes to an end (if the scheduler lets everybody proceed), is false of the code
(`C56_self_hangs`, `C56_opposite_hangs`, `C56_negation`). What holds: if the operands of the comparisons are given in increasing
order (`Cmp.Upwards`), comparisons and other calls never get in each other's way for good (`C56_not_stuck_partial`), can always be
carried through to the end (`C56_completes_partial`), are carried through to the end by every fair scheduler if no further calls
and comparisons are begun (`C56_all_end_partial`), and by every strongly fair scheduler even if new calls and comparisons are begun all
the time (`C56_strongly_fair_partial`).

`Waits`, `GetsAhead`, `Foreign`, `Works`, `Runs`, `Idle`, `SysFair`, `SysStronglyFair`, `HasElements`, `WaitsRight` are defined in `Spec/Compare.lean`, `Blocked`,
`GrowthIntact`, `SwapsUp` in `Spec/Progress.lean`.
-/

namespace Verif

variable {α β : Type} {m : Nat → Mem α} {l : Nat → List α} {S : Nat → Sys α β} {n : Nat}

/-- A comparison that does not wait gets ahead. -/
theorem C56_gets_ahead (h : SysExec m l n S) (hm : ∀ u, InitMem (m u) (l u)) {k : Nat} (hk : (S n).Comparing k)
    (hw : ¬ (S n).Waits k) : ∃ S', (S n).GetsAhead S' k := by
  obtain ⟨T, hT, -⟩ := id hk
  obtain ⟨S', s, T', hA⟩ := h.ahead hm hT hk hw
  exact ⟨S', hA.step, T, T', s, hA.acts.cmp, by rw [hA.acts.cmp', upd_same], hA.counts⟩

/-- **C56, in part.** If the operands of all unfinished comparisons are given in increasing order and swaps, too, then somebody can
get ahead as long as there is anything to do: a comparison, or a call that is not part of a comparison. -/
theorem C56_not_stuck_partial (h : SysExec m l n S) (hm : ∀ u, InitMem (m u) (l u)) (rank : Nat → Nat)
    (hup : ∀ k T, (S n).cmp k = some T → (S n).Comparing k → T.Upwards rank)
    (hsw : ∀ u c op, ((S n).vec u).Called c op → op.SwapsUp) (hp : ∀ u, ((S n).vec u).GrowthIntact)
    (hb : (∃ k, (S n).Comparing k) ∨ ∃ u c op, ((S n).vec u).Running c op) :
    (∃ k S', (S n).Comparing k ∧ (S n).GetsAhead S' k) ∨
      ∃ u c op, ((S n).vec u).Running c op ∧ (S n).Foreign u c ∧ ¬ ((S n).vec u).Blocked c := by
  rcases h.moving hm hsw rank hup hp hb with ⟨k, hk, hw⟩ | h'
  · obtain ⟨S', hS'⟩ := C56_gets_ahead h hm hk hw
    exact .inl ⟨k, S', hk, hS'⟩
  · exact .inr h'

/-- **C56, in part.** Under these conditions, and if no closure of `push_for_idx` panics, all comparisons and all calls can be
carried through to the end. -/
theorem C56_completes_partial (h : SysExec m l n S) (hm : ∀ u, InitMem (m u) (l u)) (rank : Nat → Nat)
    (hup : ∀ k T, (S n).cmp k = some T → (S n).Comparing k → T.Upwards rank)
    (hsw : ∀ u c op, ((S n).vec u).Called c op → op.SwapsUp) (hp : ∀ u, ((S n).vec u).GrowthIntact)
    (hc : (S n).SafeClosures) : ∃ S', (S n).Runs S' ∧ S'.Idle :=
  SysExec.completes hm rank h hsw hup hp hc

/-- **C56, in part.** Consider an infinite execution with fair scheduling. From moment `N` on no comparisons are begun and no calls
other than those of the comparisons. If at moment `N` the operands of all unfinished comparisons are given in increasing order and
swaps, too, and storage can grow, then from some moment on all comparisons and all calls are over. -/
theorem C56_all_end_partial (h : InfSysExec m l S) (hm : ∀ u, InitMem (m u) (l u)) (hf : SysFair S) {N : Nat}
    (hN : ∀ t, N ≤ t → (S t).Works (S (t + 1))) (rank : Nat → Nat)
    (hup : ∀ k T, (S N).cmp k = some T → (S N).Comparing k → T.Upwards rank)
    (hsw : ∀ u c op, ((S N).vec u).Called c op → op.SwapsUp) (hp : ∀ t, N ≤ t → ∀ u, ((S t).vec u).GrowthIntact) :
    ∃ t0, ∀ t, t0 ≤ t → (S t).Idle :=
  h.all_end hm hf hN rank hup hsw hp

/-- **C56, in part.** Consider an infinite execution with strongly fair scheduling; calls and comparisons may be begun all the time. If
the operands of all comparisons are given in increasing order and swaps, too, storage can grow, and only finitely many vectors (those
below `B`) are right operands, then every comparison ends and every call returns or panics. -/
theorem C56_strongly_fair_partial (h : InfSysExec m l S) (hm : ∀ u, InitMem (m u) (l u)) (hf : SysStronglyFair S) (rank : Nat → Nat)
    (hup : ∀ t k T, (S t).cmp k = some T → (S t).Comparing k → T.Upwards rank)
    (hsw : ∀ t u c op, ((S t).vec u).Called c op → op.SwapsUp) (hp : ∀ t u, ((S t).vec u).GrowthIntact)
    {B : Nat} (hB : ∀ t k T, (S t).cmp k = some T → T.v < B) (t : Nat) :
    (∀ k, ∃ t', t ≤ t' ∧ ¬ (S t').Comparing k) ∧
      ∀ u c op, ((S t).vec u).Called c op →
        ∃ t', t ≤ t' ∧ ((∃ x, ((S t').vec u).Returned c op x) ∨ ∃ e, ((S t').vec u).Panicked c op e) := by
  obtain ⟨h1, h2⟩ := h.all_end_strong hm hf hsw hp hup hB t
  refine ⟨h1, fun u c op hc => ?_⟩
  obtain ⟨t', ht', ⟨ct, st, x, hx⟩, hr⟩ := h2 u c op hc
  refine ⟨t', ht', ?_⟩
  cases x with
  | running p => exact (hr ⟨ct, st, p, hx⟩).elim
  | done x et fin => exact .inl ⟨x, ct, st, et, fin, hx⟩
  | panicked e et fin => exact .inr ⟨e, ct, st, et, fin, hx⟩

/-- **C56 is false, first reason.** A nonempty operand is compared with itself, or with another operand in the same vector that
begins at the same position: `vec == vec`, `vec[0] == vec[0]`, `vec.slice(0..2) == vec.slice(0..2)`, also
`vec == vec.slice(0..1)`. The comparison never ends, even if nobody else does anything. (It holds the handle of its first left
element while it waits for that of its first right element, which is the same.) -/
theorem C56_self_hangs (h : SysExec m l n S) (hm : ∀ u, InitMem (m u) (l u)) {k t : Nat} {T : Cmp α β} (ht : t ≤ n)
    (h0 : (S t).cmp k = none) (hk : (S n).cmp k = some T) (huv : T.u = T.v) (hpos : T.p.pos 0 = T.q.pos 0)
    (hl : (S t).HasElements (l T.u) T.u T.p) (hr : (S t).HasElements (l T.v) T.v T.q) : (S n).Comparing k :=
  h.self_hangs hm ht h0 hk huv hpos hl hr

/-- **C56 is false, second reason.** If one comparison has the handle of an element and waits for that of another one, and a second
comparison has the latter and waits for the former, then they wait forever. -/
theorem C56_opposite_hangs (h : SysExec m l n S) (hm : ∀ u, InitMem (m u) (l u)) {k k' u e v f t : Nat} (ht : t ≤ n)
    (h1 : (S t).WaitsRight k u e v f) (h2 : (S t).WaitsRight k' v f u e) : (S n).Comparing k ∧ (S n).Comparing k' :=
  have := h.opposite hm h1 h2 ht
  ⟨this.1.comparing, this.2.comparing⟩

section examples
open Demo

/-- The operations that have been called. -/
def Demo.opsOf (κ : Cfg Nat Nat) : List (Op Nat Nat) := (List.range κ.next).filterMap fun c => (κ.calls c).map (·.op)

theorem Demo.mem_opsOf {m : Mem Nat} {l : List Nat} {κ : Cfg Nat Nat} (hr : Reach m l κ) (hm : InitMem m l) {c : Cid}
    {op : Op Nat Nat} (hc : κ.Called c op) : op ∈ opsOf κ := by
  obtain ⟨ct, st, x, h⟩ := hc
  exact List.mem_filterMap.2 ⟨c, List.mem_range.2 ((hr.inv hm).next _ _ h).2, by rw [h]; rfl⟩

/-- No call has panicked. -/
def Demo.calmB (κ : Cfg Nat Nat) : Bool := (List.range κ.next).all fun c =>
  match κ.calls c with
  | some ⟨_, _, _, .panicked _ _ _⟩ => false
  | _ => true

theorem Demo.calm {m : Mem Nat} {l : List Nat} {κ : Cfg Nat Nat} (hr : Reach m l κ) (hm : InitMem m l) (h : calmB κ = true) :
    κ.GrowthIntact := by
  rintro c op k mm ⟨ct, st, et, fin, hc⟩ -
  have := List.all_eq_true.1 h c (List.mem_range.2 ((hr.inv hm).next _ _ hc).2)
  rw [hc] at this
  cases this

/-- Two threads compare `[10, 20]` with `[10, 20]`. Thread 0 holds the handles of the first pair, thread 1 waits for the first of
them; a third thread pushes to the second vector. -/
def Demo.cmpTwice : List (SysChoice Nat Nat) :=
  [.start 0 0 1 .vec .vec eqN, .start 1 0 1 .vec .vec eqN] ++ sgo 0 16 ++ sgo 1 14 ++ [.vec 1 (.call (.push 7)), .vec 1 (.go 4)]

/-- The hypotheses of `C56_not_stuck_partial` and `C56_completes_partial`, and those of `C56_gets_ahead` for thread 0. -/
example : ∃ (S : Nat → Sys Nat Nat) (n : Nat),
    SysExec (mems (pairOf [10, 20] [10, 20])) (pairOf [10, 20] [10, 20]) n S ∧
    (∀ k T, (S n).cmp k = some T → (S n).Comparing k → T.Upwards id) ∧ (∀ u c op, ((S n).vec u).Called c op → op.SwapsUp) ∧
    (∀ u, ((S n).vec u).GrowthIntact) ∧ (S n).SafeClosures ∧ (S n).Comparing 0 ∧ ¬ (S n).Waits 0 ∧ (S n).Comparing 1 ∧
    (S n).Waits 1 ∧ ((S n).vec 1).Running 4 (.push 7) := by
  have hp : SysPossible (pairOf [10, 20] [10, 20]) cmpTwice := by unfold SysPossible; rfl
  have hl : ∀ u, (pairOf [10, 20] [10, 20] u).length ≤ 8 := fun u => by unfold pairOf; split <;> decide
  have hex := sysExec hp
  have hm := mems_init hl
  have hR := fun u => (C55_each_vector hex hm u).1
  have hops : ∀ u c op, ((sysAfter (pairOf [10, 20] [10, 20]) cmpTwice).vec u).Called c op →
      op = .iter ∨ op = .elCloned 0 ∨ op = .push 7 := by
    intro u c op hc
    have := mem_opsOf (by have := hR u; simp only [List.take_length] at this; exact this) (hm u) hc
    match u with
    | 0 =>
      change op ∈ [.iter, .elCloned 0, .iter, .elCloned 0] at this
      simp only [List.mem_cons, List.not_mem_nil, or_false] at this
      rcases this with h | h | h | h <;> simp [h]
    | 1 =>
      change op ∈ [.iter, .elCloned 0, .iter, .push 7] at this
      simp only [List.mem_cons, List.not_mem_nil, or_false] at this
      rcases this with h | h | h | h <;> simp [h]
    | u + 2 => cases this
  have hI0 : CfgInv (.ofList [10, 20]) ((sysAfter (pairOf [10, 20] [10, 20]) cmpTwice).vec 0) := by
    have := (hR 0).inv (hm 0)
    simp only [List.take_length] at this
    exact this
  have hw : (sysAfter (pairOf [10, 20] [10, 20]) cmpTwice).Waits 1 := by
    refine ⟨theCmp (pairOf [10, 20] [10, 20]) cmpTwice 1, .left, _, rfl, rfl, ?_⟩
    exact At.blocked_of (c := 4) (e := 0) ⟨⟨_, _, rfl⟩, trivial⟩ hI0 rfl
  refine ⟨_, _, hex, ?_, ?_, ?_, ?_, ?_⟩
  · intro k T hk _
    rw [List.take_length] at hk
    match k with
    | 0 => cases hk; exact .inl (by decide)
    | 1 => cases hk; exact .inl (by decide)
    | 2 => cases hk
    | k + 3 => cases hk
  · intro u c op hc
    rw [List.take_length] at hc
    rcases hops u c op hc with rfl | rfl | rfl <;> trivial
  · intro u
    rw [List.take_length]
    refine calm (by have := hR u; simp only [List.take_length] at this; exact this) (hm u) ?_
    match u with
    | 0 => rfl
    | 1 => rfl
    | u + 2 => rfl
  · intro u c f hc
    rw [List.take_length] at hc
    rcases hops u c _ hc with h | h | h <;> cases h
  · rw [List.take_length]
    refine ⟨⟨_, rfl, ?_, ?_⟩, ?_, ⟨_, rfl, ?_, ?_⟩, hw, ⟨_, _, _, rfl⟩⟩
    · intro b hb; cases hb
    · intro b hb; cases hb
    · rintro ⟨T, s, K, hk, hp, hb⟩
      cases hk
      cases hp
      have hat : At ((sysAfter (pairOf [10, 20] [10, 20]) cmpTwice).vec 0) 2 0 .held := ⟨⟨_, _, rfl⟩, rfl⟩
      cases (hat.blocked hI0 hb).1
    · intro b hb; cases hb
    · intro b hb; cases hb

/-- As above, and then everything is carried through to the end: thread 0, thread 1, the push. -/
def Demo.cmpTwiceEnd : List (SysChoice Nat Nat) := cmpTwice ++ (sgo 0 16 ++ sgo 1 19 ++ List.replicate 9 (.vec 1 (.go 4)))

/-- No call is running. -/
def Demo.quietB (κ : Cfg Nat Nat) : Bool := (List.range κ.next).all fun c =>
  match κ.calls c with
  | some ⟨_, _, _, .running _⟩ => false
  | _ => true

theorem Demo.quiet {m : Mem Nat} {l : List Nat} {κ : Cfg Nat Nat} (hr : Reach m l κ) (hm : InitMem m l) (h : quietB κ = true) :
    κ.Idle := by
  intro c op ct st p hc
  have := List.all_eq_true.1 h c (List.mem_range.2 ((hr.inv hm).next _ _ hc).2)
  rw [hc] at this
  cases this

/-- The schedule is possible, and afterwards nothing is left to do. -/
theorem Demo.cmpTwiceEnd_idle : SysPossible (pairOf [10, 20] [10, 20]) cmpTwiceEnd ∧
    (sysAfter (pairOf [10, 20] [10, 20]) cmpTwiceEnd).Idle := by
  have hp : SysPossible (pairOf [10, 20] [10, 20]) cmpTwiceEnd := by unfold SysPossible; rfl
  have hl : ∀ u, (pairOf [10, 20] [10, 20] u).length ≤ 8 := fun u => by unfold pairOf; split <;> decide
  have hm := mems_init hl
  have hR := fun u => (C55_each_vector (sysExec hp) hm u).1
  simp only [List.take_length] at hR
  refine ⟨hp, ?_, fun u => quiet (hR u) (hm u) ?_⟩
  · rintro k ⟨T, hT, h1, -⟩
    match k with
    | 0 => cases hT; exact h1 true rfl
    | 1 => cases hT; exact h1 true rfl
    | 2 => cases hT
    | k + 3 => cases hT
  · match u with
    | 0 => rfl
    | 1 => rfl
    | u + 2 => rfl

/-- The calls after the schedule. -/
theorem Demo.cmpTwiceEnd_calls {t : Nat} (ht : cmpTwiceEnd.length ≤ t) (u : Nat) :
    ((sysForever (pairOf [10, 20] [10, 20]) cmpTwiceEnd t).vec u).calls =
      ((sysAfter (pairOf [10, 20] [10, 20]) cmpTwiceEnd).vec u).calls := by
  unfold sysForever
  rw [List.take_of_length_le ht]
  by_cases hu : u = 5
  · subst hu; simp only [upd_same]
  · simp only [upd_other _ _ hu]

/-- The hypotheses of `C56_all_end_partial`, with `N = 34`; at that moment both comparisons and the push are unfinished. -/
theorem Demo.cmpTwiceEnd_fits : InfSysExec (mems (pairOf [10, 20] [10, 20])) (pairOf [10, 20] [10, 20])
      (sysForever (pairOf [10, 20] [10, 20]) cmpTwiceEnd) ∧
    SysFair (sysForever (pairOf [10, 20] [10, 20]) cmpTwiceEnd) ∧
    (∀ t, 34 ≤ t → (sysForever (pairOf [10, 20] [10, 20]) cmpTwiceEnd t).Works
      (sysForever (pairOf [10, 20] [10, 20]) cmpTwiceEnd (t + 1))) ∧
    sysForever (pairOf [10, 20] [10, 20]) cmpTwiceEnd 34 = sysAfter (pairOf [10, 20] [10, 20]) cmpTwice ∧
    ∀ t u, ((sysForever (pairOf [10, 20] [10, 20]) cmpTwiceEnd t).vec u).GrowthIntact := by
  obtain ⟨hp, hidle⟩ := cmpTwiceEnd_idle
  have hl : ∀ u, (pairOf [10, 20] [10, 20] u).length ≤ 8 := fun u => by unfold pairOf; split <;> decide
  have hm := mems_init hl
  have hR := fun u => (C55_each_vector (sysExec hp) hm u).1
  simp only [List.take_length] at hR
  obtain ⟨hI, hw⟩ := sysForever_works hp (N := 34) rfl (hidle.2 5) rfl
  refine ⟨hI, sysFair_of_idle (T := cmpTwiceEnd.length) fun t ht => sysForever_idle hidle ht, hw, ?_, ?_⟩
  · rw [sysForever_le (by decide)]
    rfl
  · refine sysForever_intact hI hm (T := cmpTwiceEnd.length) fun t ht u c op k => ?_
    rintro ⟨ct, st, et, fin, hc⟩
    rw [cmpTwiceEnd_calls ht] at hc
    have hcalm : calmB ((sysAfter (pairOf [10, 20] [10, 20]) cmpTwiceEnd).vec u) = true := by
      match u with
      | 0 => rfl
      | 1 => rfl
      | u + 2 => rfl
    have := List.all_eq_true.1 hcalm c (List.mem_range.2 (((hR u).inv (hm u)).next _ _ hc).2)
    rw [hc] at this
    cases this

/-- The hypotheses of `C56_strongly_fair_partial` for the same execution, with `B = 2`. -/
example : SysStronglyFair (sysForever (pairOf [10, 20] [10, 20]) cmpTwiceEnd) ∧
    (∀ t k T, (sysForever (pairOf [10, 20] [10, 20]) cmpTwiceEnd t).cmp k = some T → T.Upwards id ∧ T.v < 2) ∧
    ∀ t u c op, ((sysForever (pairOf [10, 20] [10, 20]) cmpTwiceEnd t).vec u).Called c op → op.SwapsUp := by
  obtain ⟨hp, hidle⟩ := cmpTwiceEnd_idle
  obtain ⟨hI, -⟩ := cmpTwiceEnd_fits
  have hl : ∀ u, (pairOf [10, 20] [10, 20] u).length ≤ 8 := fun u => by unfold pairOf; split <;> decide
  have hm := mems_init hl
  have hR := fun u => (C55_each_vector (sysExec hp) hm u).1
  simp only [List.take_length] at hR
  refine ⟨sysStronglyFair_of_idle (T := cmpTwiceEnd.length) fun t ht => sysForever_idle hidle ht, fun t k T hk => ?_, fun t u c op hc => ?_⟩
  · obtain ⟨T', h1, h2⟩ := hI.goesOn hm hk (max t cmpTwiceEnd.length) (by omega)
    have h3 : (sysAfter (pairOf [10, 20] [10, 20]) cmpTwiceEnd).cmp k = some T' := by
      unfold sysForever at h1
      rw [List.take_of_length_le (by omega)] at h1
      exact h1
    have h4 : T'.u = 0 ∧ T'.v = 1 := by
      match k with
      | 0 => cases h3; exact ⟨rfl, rfl⟩
      | 1 => cases h3; exact ⟨rfl, rfl⟩
      | 2 => cases h3
      | k + 3 => cases h3
    rw [h2.u, h2.v] at h4
    rw [h4.2]
    refine ⟨.inl ?_, by decide⟩
    rw [h4.1, h4.2]
    decide
  · obtain ⟨ct, st, x, h1⟩ := hI.called hm (Nat.le_max_left t cmpTwiceEnd.length) hc
    rw [cmpTwiceEnd_calls (Nat.le_max_right _ _)] at h1
    have := mem_opsOf (hR u) (hm u) ⟨ct, st, x, h1⟩
    match u with
    | 0 =>
      change op ∈ [.iter, .elCloned 0, .iter, .elCloned 0, .elCloned 1, .elCloned 1] at this
      simp only [List.mem_cons, List.not_mem_nil, or_false] at this
      rcases this with h | h | h | h | h | h <;> rw [h] <;> trivial
    | 1 =>
      change op ∈ [.iter, .elCloned 0, .iter, .push 7, .elCloned 1, .elCloned 0, .elCloned 1] at this
      simp only [List.mem_cons, List.not_mem_nil, or_false] at this
      rcases this with h | h | h | h | h | h | h <;> rw [h] <;> trivial
    | u + 2 => cases this

/-- The comparison of a vector with itself. -/
def Demo.cmpSelf : List (SysChoice Nat Nat) := [.start 0 0 0 .vec .vec eqN] ++ sgo 0 16

/-- The hypotheses of `C56_self_hangs`. -/
example : ∃ (S : Nat → Sys Nat Nat) (n : Nat) (T : Cmp Nat Nat),
    SysExec (mems (pairOf [10, 20] [])) (pairOf [10, 20] []) n S ∧ (S 0).cmp 0 = none ∧ (S n).cmp 0 = some T ∧ T.p = .vec ∧ T.q = .vec ∧
    T.u = T.v ∧ T.p.pos 0 = T.q.pos 0 ∧ (S 0).HasElements (pairOf [10, 20] [] T.u) T.u T.p ∧
    (S 0).HasElements (pairOf [10, 20] [] T.v) T.v T.q ∧ 0 < n :=
  have hp : SysPossible (pairOf [10, 20] []) cmpSelf := by unfold SysPossible; rfl
  ⟨_, _, theCmp (pairOf [10, 20] []) cmpSelf 0, sysExec hp, rfl, rfl, rfl, rfl, rfl, rfl, .inl (by decide), .inl (by decide), by decide⟩

/-- Thread 0 evaluates `a == b` and thread 1 evaluates `b == a`. Both hold the handle of their first left element. -/
def Demo.cmpOpposite : List (SysChoice Nat Nat) :=
  [.start 0 0 1 .vec .vec eqN, .start 1 1 0 .vec .vec eqN] ++ sgo 0 14 ++ sgo 1 14 ++ sgo 0 1 ++ sgo 1 1

/-- The hypotheses of `C56_opposite_hangs`. -/
theorem Demo.opposite : SysPossible (pairOf [10, 20] [10, 20]) cmpOpposite ∧
    (sysAfter (pairOf [10, 20] [10, 20]) cmpOpposite).WaitsRight 0 0 0 1 0 ∧
    (sysAfter (pairOf [10, 20] [10, 20]) cmpOpposite).WaitsRight 1 1 0 0 0 := by
  have hp : SysPossible (pairOf [10, 20] [10, 20]) cmpOpposite := by unfold SysPossible; rfl
  have hl : ∀ u, (pairOf [10, 20] [10, 20] u).length ≤ 8 := fun u => by unfold pairOf; split <;> decide
  have hI : ∀ u, CfgInv (.ofList (pairOf [10, 20] [10, 20] u)) ((sysAfter (pairOf [10, 20] [10, 20]) cmpOpposite).vec u) := by
    intro u
    have := (C55_each_vector (sysExec hp) (mems_init hl) u).1.inv (mems_init hl u)
    simp only [List.take_length] at this
    exact this
  refine ⟨hp, ⟨_, _, rfl, rfl, rfl, rfl, ⟨_, _, _, rfl⟩, ⟨_, _, _, rfl⟩, ?_⟩, ⟨_, _, rfl, rfl, rfl, rfl, ⟨_, _, _, rfl⟩, ⟨_, _, _, rfl⟩, ?_⟩⟩
  · exact At.blocked_of (c := 4) (e := 0) ⟨⟨_, _, rfl⟩, trivial⟩ (hI 1) rfl
  · exact At.blocked_of (c := 4) (e := 0) ⟨⟨_, _, rfl⟩, trivial⟩ (hI 0) rfl

end examples

/-- **C56 is false.** Two vectors, both `[10, 20]`; one thread evaluates `a == b`, another one `b == a`, nobody does anything else.
After `n` steps there is no way in which either comparison could end. -/
theorem C56_negation : ∃ (m : Nat → Mem Nat) (l : Nat → List Nat) (S : Nat → Sys Nat Nat) (n : Nat) (T T' : Cmp Nat Nat),
    (∀ u, InitMem (m u) (l u)) ∧ SysExec m l n S ∧ (S n).cmp 0 = some T ∧ T.u = 0 ∧ T.v = 1 ∧ T.p = .vec ∧ T.q = .vec ∧
    (S n).cmp 1 = some T' ∧ T'.u = 1 ∧ T'.v = 0 ∧ T'.p = .vec ∧ T'.q = .vec ∧ (∀ k, 2 ≤ k → (S n).cmp k = none) ∧
    (∀ u c, (∃ op, ((S n).vec u).Running c op) → ¬ (S n).Foreign u c) ∧
    ∀ n' S', n ≤ n' → (∀ t, t ≤ n → S' t = S t) → SysExec m l n' S' → (S' n').Comparing 0 ∧ (S' n').Comparing 1 := by
  obtain ⟨hp, h1, h2⟩ := Demo.opposite
  have hl : ∀ u, (Demo.pairOf [10, 20] [10, 20] u).length ≤ 8 := fun u => by unfold Demo.pairOf; split <;> decide
  refine ⟨_, _, _, _, Demo.theCmp (Demo.pairOf [10, 20] [10, 20]) Demo.cmpOpposite 0,
    Demo.theCmp (Demo.pairOf [10, 20] [10, 20]) Demo.cmpOpposite 1, Demo.mems_init hl, Demo.sysExec hp, rfl, rfl, rfl, rfl, rfl,
    rfl, rfl, rfl, rfl, rfl, fun k hk => ?_, ?_, fun n' S' hn hS h => ?_⟩
  · match k, hk with
    | k + 2, _ => rfl
  · rintro u c ⟨op, ct, st, p, hc⟩ hf
    have hI := (C55_each_vector (Demo.sysExec hp) (Demo.mems_init hl) u).1.inv (Demo.mems_init hl u)
    have hlt := (hI.next _ _ hc).2
    rw [List.take_length] at hc hf hlt
    match u with
    | 0 =>
      change c < 5 at hlt
      match c, hlt with
      | 0, _ => cases hc
      | 1, _ => cases hc
      | 2, _ => exact hf 0 _ .left rfl rfl rfl
      | 3, _ => cases hc
      | 4, _ => exact hf 1 _ .right rfl rfl rfl
    | 1 =>
      change c < 5 at hlt
      match c, hlt with
      | 0, _ => cases hc
      | 1, _ => cases hc
      | 2, _ => cases hc
      | 3, _ => exact hf 1 _ .left rfl rfl rfl
      | 4, _ => exact hf 0 _ .right rfl rfl rfl
    | u + 2 => cases hc
  · have hS := hS _ (Nat.le_refl _)
    simp only [List.take_length] at hS
    rw [← hS] at h1 h2
    exact C56_opposite_hangs h (Demo.mems_init hl) hn h1 h2

end Verif
