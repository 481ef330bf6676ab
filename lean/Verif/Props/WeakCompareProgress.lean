import Verif.Weak.CompareHangs
import Verif.Props.WeakCompare
import Verif.Props.DemoWeakCompareInf

/-!
# C61: do comparisons come to an end under weak memory?

C56 in the memory model of `Weak/Model.lean`. The full statement, that every comparison comes to an end (if the scheduler lets everybody
proceed and writes become visible), is false of the code (`C60_self_hangs`, `C61_opposite_hangs`, `C61_negation`). What holds: if the
operands of the comparisons are given in increasing order (`Cmp.Upwards`), comparisons and other calls never get in each other's way for
good (`C61_not_stuck_partial`), can always be carried through to the end (`C61_completes_partial`), and are carried through to the end in
every fair execution, whatever else is begun in the meantime (`C61_all_end_partial`).

`Waits`, `GetsAhead`, `CallAhead`, `Foreign`, `Works`, `Runs`, `Idle`, `Upwards`, `SysFair`, `WaitsRight` are defined in
`Weak/SpecCompareProgress.lean`, `Blocked`, `GrowthIntact`, `SafeClosures` in `Weak/SpecProgress.lean`.
-/

namespace Verif

variable {α β : Type} {m : Nat → Mem α} {l : Nat → List α} {S : Nat → Weak.Sys α β} {n : Nat}

/-- A comparison that does not wait can get ahead. -/
theorem C61_gets_ahead (h : Weak.SysExec m n S) (hm : ∀ u, InitMem (m u) (l u)) (hd : (S n).Disciplined) {k : Nat} (hk : (S n).Comparing k)
    (hw : ¬ (S n).Waits k) : ∃ S', (S n).GetsAhead S' k := by
  obtain ⟨T, hT, -⟩ := id hk
  obtain ⟨S', s, T', hA⟩ := Weak.Phase.ahead (h.inv (Nat.le_refl n)) (h.fine hm hd (Nat.le_refl n)) (h.phase hm hd (Nat.le_refl n) k T hT)
    hT hk hw
  exact ⟨S', hA.gets⟩

/-- **C61, in part.** If the operands of all unfinished comparisons are given in increasing order and swaps, too, then somebody can get
ahead as long as there is anything to do: a comparison, or a call that is not part of a comparison. -/
theorem C61_not_stuck_partial (h : Weak.SysExec m n S) (hm : ∀ u, InitMem (m u) (l u)) (hd : (S n).Disciplined) {rank : Nat → Nat}
    (hup : (S n).Upwards rank) (hs : (S n).SwapsUp) (hg : (S n).GrowthIntact fun u => (m u).maxCap)
    (hb : (∃ k, (S n).Comparing k) ∨ ∃ u c op, ((S n).vec u).Running c op) :
    (∃ k S', (S n).Comparing k ∧ (S n).GetsAhead S' k) ∨ ∃ u c op S', ((S n).vec u).Running c op ∧ (S n).CallAhead S' u c := by
  rcases h.moving hm hd hs hg hup hb with ⟨k, hk, hw⟩ | ⟨u, c, ⟨op, hr⟩, hf, hnb⟩
  · obtain ⟨S', hS'⟩ := C61_gets_ahead h hm hd hk hw
    exact .inl ⟨k, S', hk, hS'⟩
  · obtain ⟨S', hS'⟩ := (h.inv (Nat.le_refl n)).goes (h.fine hm hd (Nat.le_refl n)) ⟨op, hr⟩ hf hnb
    exact .inr ⟨u, c, op, S', hr, hS'.gets⟩

/-- **C61, in part.** Under these conditions, and if no closure of `push_for_idx` panics, all comparisons and all calls can be carried
through to the end. -/
theorem C61_completes_partial (h : Weak.SysExec m n S) (hm : ∀ u, InitMem (m u) (l u)) (hd : (S n).Disciplined) {rank : Nat → Nat}
    (hup : (S n).Upwards rank) (hs : (S n).SwapsUp) (hc : (S n).SafeClosures)
    (hx : ∀ u c op, ((S n).vec u).Panicked c op .maxCapacity → ((S n).vec u).mem.maxCap = (m u).maxCap) :
    ∃ S', (S n).Runs S' ∧ S'.Idle :=
  h.completes hm rank hd hs hup hc hx

/-- **C61, in part.** Consider an infinite fair execution in which finitely many vectors are compared, the operands of the comparisons
are given in increasing order, swaps, too, and storage can grow. Every comparison comes to an end, and every call as well, also if
calls and comparisons are begun all the time. -/
theorem C61_all_end_partial (h : Weak.InfSysExec m S) (hm : ∀ u, InitMem (m u) (l u)) (hf : Weak.SysFair S) (hd : ∀ t, (S t).Disciplined)
    {rank : Nat → Nat} (hup : ∀ t, (S t).Upwards rank) (hs : ∀ t, (S t).SwapsUp) {mx : Nat → Nat} (hg : ∀ t, (S t).GrowthIntact mx)
    {B : Nat} (hB : ∀ t k T, (S t).cmp k = some T → T.v < B) (t : Nat) :
    (∀ k T, (S t).cmp k = some T → ∃ t' T', t ≤ t' ∧ (S t').cmp k = some T' ∧ ((∃ b, T'.prog = .ret b) ∨ ∃ e, T'.prog = .panic e)) ∧
      ∀ u c op, ((S t).vec u).Called c op → ∃ t', t ≤ t' ∧ ((S t').vec u).Over c op := by
  obtain ⟨h1, h2⟩ := h.all_end hm hf hd hs hg hup hB t
  refine ⟨fun k T hk => ?_, h2⟩
  obtain ⟨t', ht, hno⟩ := h1 k
  obtain ⟨T', hk', -⟩ := h.goesOn hm hd hk t' ht
  refine ⟨t', T', ht, hk', Classical.byContradiction fun hh => hno ⟨T', hk', fun b hb => hh (.inl ⟨b, hb⟩), fun e he => hh (.inr ⟨e, he⟩)⟩⟩

/-- **C61 is false.** If one comparison has the handle of an element and waits for that of another one, and a second comparison has the
latter and waits for the former, then they wait forever, whatever messages are read. -/
theorem C61_opposite_hangs (h : Weak.SysExec m n S) (hm : ∀ u, InitMem (m u) (l u)) (hd : (S n).Disciplined) {k k' u e v f t : Nat}
    (ht : t ≤ n) (h1 : (S t).WaitsRight k u e v f) (h2 : (S t).WaitsRight k' v f u e) : (S n).Comparing k ∧ (S n).Comparing k' :=
  have := h.opposite hm hd h1 h2 ht
  ⟨this.1.comparing, this.2.comparing⟩

section examples
open Demo Weak Weak.Show

/-- Two threads compare `[10, 20]` with `[10, 20]`. Thread 0 holds the handles of the first pair, thread 1 waits for the first of
them; a third thread pushes to the second vector. -/
def Weak.Show.cmpTwice : List (SysChoice Nat Nat) :=
  [.start 0 0 1 .vec .vec eqN fun _ => [], .start 1 0 1 .vec .vec eqN fun _ => []] ++ sgo 0 16 ++ sgo 1 14 ++
    [.vec 1 (.call (.push 7) []), .vec 1 (.go 4)]

/-- As above, and then everything is carried through to the end: thread 0, thread 1, the push. -/
def Weak.Show.cmpTwiceEnd : List (SysChoice Nat Nat) := Weak.Show.cmpTwice ++ (sgo 0 16 ++ sgo 1 19 ++ List.replicate 9 (.vec 1 (.go 4)))

/-- Thread 0 evaluates `a == b` and thread 1 evaluates `b == a`. Both hold the handle of their first left element. -/
def Weak.Show.cmpOpposite : List (SysChoice Nat Nat) :=
  [.start 0 0 1 .vec .vec eqN fun _ => [], .start 1 1 0 .vec .vec eqN fun _ => []] ++ sgo 0 14 ++ sgo 1 14 ++ sgo 0 1 ++ sgo 1 1

theorem Weak.Show.sys_reach {l : Nat → List Nat} {chs : List (Weak.SysChoice Nat Nat)} (hp : Weak.Show.SysPossible l chs) (u : Nat) :
    Weak.Reach (mems l u) ((Weak.Show.sysAfter l chs).vec u) := by
  have := ((Weak.Show.sysExec hp).inv (Nat.le_refl _)).reach u
  rwa [List.take_length] at this

/-- Which operations the example calls. -/
def Weak.Show.Known (op : Op Nat Nat) : Prop := op = .iter ∨ op = .elCloned 0 ∨ op = .elCloned 1 ∨ op = .push 7

theorem Weak.Show.known_of {l : Nat → List Nat} {chs : List (Weak.SysChoice Nat Nat)} (hp : Weak.Show.SysPossible l chs)
    (h0 : ∀ op ∈ ops ((Weak.Show.sysAfter l chs).vec 0), Known op) (h1 : ∀ op ∈ ops ((Weak.Show.sysAfter l chs).vec 1), Known op)
    (h2 : ∀ u, ops ((Weak.Show.sysAfter l chs).vec (u + 2)) = []) (u : Nat) : ((Weak.Show.sysAfter l chs).vec u).Only Known := by
  refine sys_only hp ?_
  match u with
  | 0 => exact h0
  | 1 => exact h1
  | u + 2 => rw [h2 u]; intro op hop; cases hop

theorem Weak.Show.known_disciplined {κ : Weak.Cfg Nat Nat} (h : κ.Only Known) : κ.Disciplined := fun c e hc => by
  rcases h c _ hc with h | h | h | h <;> cases h

theorem Weak.Show.known_swapsUp {κ : Weak.Cfg Nat Nat} (h : κ.Only Known) : κ.SwapsUp := fun c op hc => by
  rcases h c _ hc with rfl | rfl | rfl | rfl <;> trivial

theorem Weak.Show.known_safe {κ : Weak.Cfg Nat Nat} (h : κ.Only Known) : κ.SafeClosures := fun c op hc f hf => by
  subst hf
  rcases h c _ hc with h | h | h | h <;> cases h

theorem Weak.Show.known_intact {κ : Weak.Cfg Nat Nat} {mx : Nat} (hx : ∀ c op k, ¬ κ.Panicked c op k) : κ.GrowthIntact mx :=
  ⟨fun _ _ h => hx _ _ _ h, fun _ _ h => (hx _ _ _ h).elim⟩

theorem Weak.Show.twice_possible : Weak.Show.SysPossible (pairOf [10, 20] [10, 20]) Weak.Show.cmpTwice := by
  unfold Weak.Show.SysPossible; rfl

theorem Weak.Show.twice_known (u : Nat) : ((Weak.Show.sysAfter (pairOf [10, 20] [10, 20]) Weak.Show.cmpTwice).vec u).Only Known := by
  refine known_of twice_possible (fun op hop => ?_) (fun op hop => ?_) (fun u => rfl) u
  · change op ∈ [.iter, .elCloned 0, .iter, .elCloned 0] at hop
    simp only [List.mem_cons, List.not_mem_nil, or_false] at hop
    rcases hop with rfl | rfl | rfl | rfl <;> simp [Known]
  · change op ∈ [.iter, .elCloned 0, .iter, .push 7] at hop
    simp only [List.mem_cons, List.not_mem_nil, or_false] at hop
    rcases hop with rfl | rfl | rfl | rfl <;> simp [Known]

theorem Weak.Show.twice_calm (u : Nat) (c : Cid) (op : Op Nat Nat) (k : PanicKind) :
    ¬ ((Weak.Show.sysAfter (pairOf [10, 20] [10, 20]) Weak.Show.cmpTwice).vec u).Panicked c op k := by
  refine no_panic (sys_reach twice_possible u) ?_ c op k
  match u with
  | 0 => rfl
  | 1 => rfl
  | u + 2 => rfl

/-- The hypotheses of `C61_not_stuck_partial` and `C61_completes_partial`, and those of `C61_gets_ahead` for thread 0. -/
example : ∃ (S : Nat → Weak.Sys Nat Nat) (n : Nat),
    Weak.SysExec (mems (pairOf [10, 20] [10, 20])) n S ∧ (∀ u, InitMem (mems (pairOf [10, 20] [10, 20]) u) (pairOf [10, 20] [10, 20] u)) ∧
    (S n).Disciplined ∧ (S n).Upwards id ∧ (S n).SwapsUp ∧ (S n).GrowthIntact (fun u => (mems (pairOf [10, 20] [10, 20]) u).maxCap) ∧
    (S n).SafeClosures ∧ (∀ u c op, ((S n).vec u).Panicked c op .maxCapacity →
      ((S n).vec u).mem.maxCap = (mems (pairOf [10, 20] [10, 20]) u).maxCap) ∧
    (S n).Comparing 0 ∧ ¬ (S n).Waits 0 ∧ (S n).Comparing 1 ∧ (S n).Waits 1 ∧ ((S n).vec 1).Running 4 (.push 7) := by
  have hm := mems_init (pair_le (xs := [10, 20]) (ys := [10, 20]) (by decide) (by decide))
  have hd : (Weak.Show.sysAfter (pairOf [10, 20] [10, 20]) Weak.Show.cmpTwice).Disciplined := fun u => known_disciplined (twice_known u)
  have hheld : Weak.At ((Weak.Show.sysAfter (pairOf [10, 20] [10, 20]) Weak.Show.cmpTwice).vec 0) 2 0 .held :=
    ⟨⟨_, rfl, rfl, rfl⟩, fun x hx => by cases hx⟩
  have hwait : Weak.At ((Weak.Show.sysAfter (pairOf [10, 20] [10, 20]) Weak.Show.cmpTwice).vec 0) 4 0 .wait :=
    ⟨⟨_, rfl, rfl, rfl⟩, fun x hx => by cases hx⟩
  have hb := hwait.blocked_of hheld (by decide) (hm 0) (sys_reach twice_possible 0) (hd 0)
  refine ⟨_, _, sysExec twice_possible, hm, ?_⟩
  rw [List.take_length]
  refine ⟨hd, ?_, fun u => known_swapsUp (twice_known u), fun u => known_intact (twice_calm u), fun u => known_safe (twice_known u),
    fun u c op h => (twice_calm u _ _ _ h).elim, ⟨_, rfl, ?_, ?_⟩, ?_, ⟨_, rfl, ?_, ?_⟩, ?_, ⟨_, _, rfl, rfl, rfl⟩⟩
  · intro k T hk _
    match k with
    | 0 => cases hk; exact .inl (by decide)
    | 1 => cases hk; exact .inl (by decide)
    | 2 => cases hk
    | k + 3 => cases hk
  · intro b hb; cases hb
  · intro b hb; cases hb
  · rintro ⟨T, s, K, hk, hp, hb⟩
    cases hk
    cases hp
    obtain ⟨K, K0, hw⟩ := winv_of (hm 0) (sys_reach twice_possible 0) (hd 0)
    cases hheld.blocked hw (binv (sys_reach twice_possible 0)) hb
  · intro b hb; cases hb
  · intro b hb; cases hb
  · exact ⟨Weak.Show.theCmp (pairOf [10, 20] [10, 20]) Weak.Show.cmpTwice 1, .left, _, rfl, rfl, hb⟩

theorem Weak.Show.twiceEnd_possible : Weak.Show.SysPossible (pairOf [10, 20] [10, 20]) Weak.Show.cmpTwiceEnd := by
  unfold Weak.Show.SysPossible; rfl

/-- The hypotheses of `C61_all_end_partial`; at moment 34 both comparisons and the push are unfinished. -/
example : ∃ S : Nat → Weak.Sys Nat Nat, Weak.InfSysExec (mems (pairOf [10, 20] [10, 20])) S ∧
    (∀ u, InitMem (mems (pairOf [10, 20] [10, 20]) u) (pairOf [10, 20] [10, 20] u)) ∧ Weak.SysFair S ∧ (∀ t, (S t).Disciplined) ∧
    (∀ t, (S t).Upwards id) ∧ (∀ t, (S t).SwapsUp) ∧ (∀ t, (S t).GrowthIntact fun _ => 8) ∧
    (∀ t k T, (S t).cmp k = some T → T.v < 2) ∧ S 34 = Weak.Show.sysAfter (pairOf [10, 20] [10, 20]) Weak.Show.cmpTwice := by
  have hp := twiceEnd_possible
  have hm := mems_init (pair_le (xs := [10, 20]) (ys := [10, 20]) (by decide) (by decide))
  have hknown : ∀ u, ((Weak.Show.sysAfter (pairOf [10, 20] [10, 20]) Weak.Show.cmpTwiceEnd).vec u).Only Known := by
    refine known_of hp (fun op hop => ?_) (fun op hop => ?_) fun u => rfl
    · change op ∈ [.iter, .elCloned 0, .iter, .elCloned 0, .elCloned 1, .elCloned 1] at hop
      simp only [List.mem_cons, List.not_mem_nil, or_false] at hop
      rcases hop with rfl | rfl | rfl | rfl | rfl | rfl <;> simp [Known]
    · change op ∈ [.iter, .elCloned 0, .iter, .push 7, .elCloned 1, .elCloned 0, .elCloned 1] at hop
      simp only [List.mem_cons, List.not_mem_nil, or_false] at hop
      rcases hop with rfl | rfl | rfl | rfl | rfl | rfl | rfl <;> simp [Known]
  have hidle : (Weak.Show.sysAfter (pairOf [10, 20] [10, 20]) Weak.Show.cmpTwiceEnd).Idle := by
    refine ⟨?_, fun u => idle_of (sys_reach hp u) ?_⟩
    · rintro k ⟨T, hT, h1, -⟩
      match k with
      | 0 => cases hT; exact h1 true rfl
      | 1 => cases hT; exact h1 true rfl
      | 2 => cases hT
      | k + 3 => cases hT
    · match u with
      | 0 => rfl
      | 1 => rfl
      | u + 2 => rfl
  have hcalm : ∀ u c op k, ¬ ((Weak.Show.sysAfter (pairOf [10, 20] [10, 20]) Weak.Show.cmpTwiceEnd).vec u).Panicked c op k := by
    intro u
    refine no_panic (sys_reach hp u) ?_
    match u with
    | 0 => rfl
    | 1 => rfl
    | u + 2 => rfl
  have hI := sysLasting_inf hp (hidle.2 5) rfl
  have hd : ∀ t, (sysLasting (pairOf [10, 20] [10, 20]) Weak.Show.cmpTwiceEnd t).Disciplined := fun t u =>
    known_disciplined (sysLasting_only hI (hknown u) t)
  have huv : ∀ t k T, (sysLasting (pairOf [10, 20] [10, 20]) Weak.Show.cmpTwiceEnd t).cmp k = some T → T.u = 0 ∧ T.v = 1 := by
    intro t k T hk
    obtain ⟨T', hk', hK⟩ := hI.goesOn hm hd hk _ (Nat.le_max_left t Weak.Show.cmpTwiceEnd.length)
    rw [sysLasting_end (Nat.le_max_right _ _)] at hk'
    rw [← hK.u, ← hK.v]
    match k with
    | 0 => cases hk'; exact ⟨rfl, rfl⟩
    | 1 => cases hk'; exact ⟨rfl, rfl⟩
    | 2 => cases hk'
    | k + 3 => cases hk'
  refine ⟨_, hI, hm, sysLasting_fair hidle, hd, fun t k T hk _ => .inl ?_, fun t u => known_swapsUp (sysLasting_only hI (hknown u) t),
    fun t u => known_intact (sysLasting_calm hI (hcalm u) t), fun t k T hk => ?_, rfl⟩
  · have := huv t k T hk
    rw [this.1, this.2]
    decide
  · rw [(huv t k T hk).2]; decide

/-- The hypotheses of `C61_opposite_hangs`. -/
theorem Weak.Show.opposite : Weak.Show.SysPossible (pairOf [10, 20] [10, 20]) Weak.Show.cmpOpposite ∧
    (∀ u, ((Weak.Show.sysAfter (pairOf [10, 20] [10, 20]) Weak.Show.cmpOpposite).vec u).Only Known) ∧
    (Weak.Show.sysAfter (pairOf [10, 20] [10, 20]) Weak.Show.cmpOpposite).WaitsRight 0 0 0 1 0 ∧
    (Weak.Show.sysAfter (pairOf [10, 20] [10, 20]) Weak.Show.cmpOpposite).WaitsRight 1 1 0 0 0 := by
  have hp : Weak.Show.SysPossible (pairOf [10, 20] [10, 20]) Weak.Show.cmpOpposite := by unfold Weak.Show.SysPossible; rfl
  have hm := mems_init (pair_le (xs := [10, 20]) (ys := [10, 20]) (by decide) (by decide))
  have hknown : ∀ u, ((Weak.Show.sysAfter (pairOf [10, 20] [10, 20]) Weak.Show.cmpOpposite).vec u).Only Known := by
    refine known_of hp (fun op hop => ?_) (fun op hop => ?_) fun u => rfl
    · change op ∈ [.iter, .elCloned 0, .iter, .elCloned 0] at hop
      simp only [List.mem_cons, List.not_mem_nil, or_false] at hop
      rcases hop with rfl | rfl | rfl | rfl <;> simp [Known]
    · change op ∈ [.iter, .iter, .elCloned 0, .elCloned 0] at hop
      simp only [List.mem_cons, List.not_mem_nil, or_false] at hop
      rcases hop with rfl | rfl | rfl | rfl <;> simp [Known]
  refine ⟨hp, hknown, ⟨_, _, rfl, rfl, rfl, rfl, ⟨_, rfl, rfl⟩, ⟨_, rfl, rfl⟩, ?_⟩, ⟨_, _, rfl, rfl, rfl, rfl, ⟨_, rfl, rfl⟩, ⟨_, rfl, rfl⟩, ?_⟩⟩
  · exact Weak.At.blocked_of (c := 4) (d := 3) (e := 0) ⟨⟨_, rfl, rfl, rfl⟩, fun x hx => by cases hx⟩
      ⟨⟨_, rfl, rfl, rfl⟩, fun x hx => by cases hx⟩ (by decide) (hm 1) (sys_reach hp 1) (known_disciplined (hknown 1))
  · exact Weak.At.blocked_of (c := 4) (d := 2) (e := 0) ⟨⟨_, rfl, rfl, rfl⟩, fun x hx => by cases hx⟩
      ⟨⟨_, rfl, rfl, rfl⟩, fun x hx => by cases hx⟩ (by decide) (hm 0) (sys_reach hp 0) (known_disciplined (hknown 0))

end examples

open Weak.Show in
/-- **C61 is false.** Two vectors, both `[10, 20]`; one thread evaluates `a == b`, another one `b == a`, nobody does anything else.
After `n` steps there is no way in which either comparison could end, whatever others do (without breaking the promises of unsafe code). -/
theorem C61_negation : ∃ (m : Nat → Mem Nat) (l : Nat → List Nat) (S : Nat → Weak.Sys Nat Nat) (n : Nat) (T T' : Weak.Cmp Nat Nat),
    (∀ u, InitMem (m u) (l u)) ∧ Weak.SysExec m n S ∧ (S n).Disciplined ∧ (S n).cmp 0 = some T ∧ T.u = 0 ∧ T.v = 1 ∧ T.p = .vec ∧
    T.q = .vec ∧ (S n).cmp 1 = some T' ∧ T'.u = 1 ∧ T'.v = 0 ∧ T'.p = .vec ∧ T'.q = .vec ∧ (∀ k, 2 ≤ k → (S n).cmp k = none) ∧
    (∀ u c, (∃ op, ((S n).vec u).Running c op) → ¬ (S n).Foreign u c) ∧
    ∀ n' S', n ≤ n' → (∀ t, t ≤ n → S' t = S t) → Weak.SysExec m n' S' → (S' n').Disciplined →
      (S' n').Comparing 0 ∧ (S' n').Comparing 1 := by
  obtain ⟨hp, hknown, h1, h2⟩ := Weak.Show.opposite
  have hm := Demo.mems_init (pair_le (xs := [10, 20]) (ys := [10, 20]) (by decide) (by decide))
  refine ⟨_, _, _, _, theCmp (Demo.pairOf [10, 20] [10, 20]) cmpOpposite 0,
    theCmp (Demo.pairOf [10, 20] [10, 20]) cmpOpposite 1, hm, sysExec hp, ?_, rfl, rfl, rfl, rfl, rfl,
    rfl, rfl, rfl, rfl, rfl, fun k hk => ?_, ?_, fun n' S' hn hS h hd => ?_⟩
  · rw [List.take_length]
    exact fun u => known_disciplined (hknown u)
  · match k, hk with
    | k + 2, _ => rfl
  · rintro u c ⟨op, r, p, hc, -, hr⟩ hf
    have hlt : c < ((sysAfter (Demo.pairOf [10, 20] [10, 20]) cmpOpposite).vec u).next := by
      refine Nat.lt_of_not_le fun hge => ?_
      rw [List.take_length] at hc
      rw [(sys_reach hp u).new c hge] at hc; cases hc
    rw [List.take_length] at hc hf
    match u with
    | 0 =>
      change c < 5 at hlt
      match c, hlt with
      | 0, _ => cases hc
      | 1, _ => cases hc; cases hr
      | 2, _ => exact hf 0 _ .left rfl rfl rfl
      | 3, _ => cases hc; cases hr
      | 4, _ => exact hf 1 _ .right rfl rfl rfl
    | 1 =>
      change c < 5 at hlt
      match c, hlt with
      | 0, _ => cases hc
      | 1, _ => cases hc; cases hr
      | 2, _ => cases hc; cases hr
      | 3, _ => exact hf 1 _ .left rfl rfl rfl
      | 4, _ => exact hf 0 _ .right rfl rfl rfl
    | u + 2 => cases hc
  · have hS := hS _ (Nat.le_refl _)
    simp only [List.take_length] at hS
    rw [← hS] at h1 h2
    exact C61_opposite_hangs h hm hd hn h1 h2

end Verif
