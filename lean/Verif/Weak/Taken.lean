import Verif.Weak.Owner
import Verif.Weak.Progress
import Verif.Weak.Values
import Verif.Proof.Owned

/-!
# Everything that happened is known to some call; overruns

Helper file (no property statements).
-/

namespace Verif.Weak

variable {α β γ : Type} {D : Mode} {mx n : Nat} {κ κ' : Cfg α β} {K K0 : Cid → Know}

/-! ## everything is known to somebody -/

/-- What an action leaves behind is known to the call. -/
structure Tells (m m' : WMem α) (V V' : View) : Prop where
  le : V.Le V'
  res : m'.res.length = m.res.length ∨ m'.res.length ≤ V'.res + 1
  written : m'.written.length = m.written.length ∨ m'.written.length ≤ V'.written + 1
  cap : m'.cap.length = m.cap.length ∨ m'.cap.length ≤ V'.cap + 1
  st : ∀ i, (m'.st i).length = (m.st i).length ∨ (m'.st i).length ≤ V'.st i + 1
  acc : ∀ k, k < m'.acc.length → k < m.acc.length ∨ V'.seen k = true
  longer : m.acc.length ≤ m'.acc.length
  allocAt : ∀ i k, m'.allocAt i = some k → m.allocAt i = some k ∨ k < m'.acc.length
  alloc : m'.alloc = m.alloc ∨ m'.cap = m.cap
  max : m'.maxCap = m.maxCap

theorem Tells.view {m : WMem α} {V V' : View} (h : V.Le V') : Tells m m V V' :=
  ⟨h, .inl rfl, .inl rfl, .inl rfl, fun _ => .inl rfl, fun _ h => .inl h, Nat.le_refl _, fun _ _ h => .inl h, .inl rfl, rfl⟩

theorem exec_tells {a : Act α} {t : Nat} {V V' : View} {m m' : WMem α} {b : a.Resp} (he : exec a t V m = .ok V' m' b) :
    Tells m m' V V' := by
  cases a with
  | resFetchAdd k o =>
    simp only [exec] at he
    split at he
    · next r hp hr =>
      cases he
      obtain ⟨-, ht⟩ := place_last hp
      exact ⟨(View.read_le _ _ _).trans (View.atRes_le _ _), .inr (by simp [View.atRes]; omega), .inl rfl, .inl rfl,
        fun _ => .inl rfl, fun _ h => .inl h, Nat.le_refl _, fun _ _ h => .inl h, .inl rfl, rfl⟩
    · cases he
    · cases he
  | resLoad o =>
    simp only [exec] at he
    split at he
    · split at he
      · cases he; exact .view ((View.read_le _ _ _).trans (View.atRes_le _ _))
      · cases he
    · cases he
  | writtenLoad o =>
    simp only [exec] at he
    split at he
    · split at he
      · cases he; exact .view ((View.read_le _ _ _).trans (View.atWritten_le _ _))
      · cases he
    · cases he
  | writtenFetchMax k o =>
    simp only [exec] at he
    split at he
    · next r hp hr =>
      cases he
      obtain ⟨-, ht⟩ := place_last hp
      exact ⟨(View.read_le _ _ _).trans (View.atWritten_le _ _), .inl rfl, .inr (by simp [View.atWritten]; omega), .inl rfl,
        fun _ => .inl rfl, fun _ h => .inl h, Nat.le_refl _, fun _ _ h => .inl h, .inl rfl, rfl⟩
    · cases he
    · cases he
  | capLoad o =>
    simp only [exec] at he
    split at he
    · split at he
      · cases he; exact .view ((View.read_le _ _ _).trans (View.atCap_le _ _))
      · cases he
    · cases he
  | maxCapLoad => simp only [exec] at he; cases he; exact .view (.refl _)
  | growAlloc k =>
    simp only [exec] at he
    split at he
    · cases he
      refine ⟨View.note_le _ _, .inl rfl, .inl rfl, .inl rfl, fun _ => .inl rfl, fun k hk => ?_, by simp, fun i k hk => ?_, .inr rfl, rfl⟩
      · simp only [List.length_append, List.length_singleton] at hk
        rcases Nat.lt_or_ge k m.acc.length with h | h
        · exact .inl h
        · have : k = m.acc.length := by omega
          subst this; exact .inr (View.note_seen _ _)
      · simp only at hk
        split at hk
        · cases hk; exact .inr (by simp)
        · exact .inl hk
    · cases he
  | growPublish o =>
    simp only [exec] at he
    split at he
    · split at he
      · next hp =>
        cases he
        obtain ⟨-, ht⟩ := place_last hp
        exact ⟨View.atCap_le _ _, .inl rfl, .inl rfl, .inr (by simp [View.atCap]; omega),
          fun _ => .inl rfl, fun _ h => .inl h, Nat.le_refl _, fun _ _ h => .inl h, .inl rfl, rfl⟩
      · cases he
      · cases he
    · cases he
  | stLoad i o =>
    simp only [exec] at he
    split at he
    · split at he
      · split at he
        · cases he; exact .view ((View.read_le _ _ _).trans (View.atSt_le _ _ _))
        · cases he
      · cases he
    · cases he
  | stCas i e s ok fail =>
    simp only [exec] at he
    split at he
    · split at he
      · next r hr =>
        split at he
        · split at he
          · next hp =>
            cases he
            obtain ⟨-, ht⟩ := place_last hp
            refine ⟨(View.read_le _ _ _).trans (View.atSt_le _ _ _), .inl rfl, .inl rfl, .inl rfl, fun j => ?_, fun _ h => .inl h,
              Nat.le_refl _, fun _ _ h => .inl h, .inl rfl, rfl⟩
            simp only [upd_apply]
            split
            · next hj =>
              subst hj
              have := View.atSt_st (V.read ok r) j (t + 1)
              exact .inr (by simp only [List.length_append, List.length_singleton]; omega)
            · exact .inl rfl
          · cases he
          · cases he
        · split at he
          · cases he; exact .view ((View.read_le _ _ _).trans (View.atSt_le _ _ _))
          · cases he
      · cases he
    · cases he
  | stStore i s o =>
    simp only [exec] at he
    split at he
    · split at he
      · next hp =>
        cases he
        obtain ⟨-, ht⟩ := place_last hp
        refine ⟨View.atSt_le _ _ _, .inl rfl, .inl rfl, .inl rfl, fun j => ?_, fun _ h => .inl h,
          Nat.le_refl _, fun _ _ h => .inl h, .inl rfl, rfl⟩
        simp only [upd_apply]
        split
        · next hj =>
          subst hj
          have := View.atSt_st V j (t + 1)
          exact .inr (by simp only [List.length_append, List.length_singleton]; omega)
        · exact .inl rfl
      · cases he
      · cases he
    · cases he
  | valRead i =>
    simp only [exec] at he
    split at he
    · split at he
      · split at he
        · cases he
          refine ⟨View.note_le _ _, .inl rfl, .inl rfl, .inl rfl, fun _ => .inl rfl, fun k hk => ?_, by simp, fun _ _ h => .inl h, .inl rfl, rfl⟩
          simp only [List.length_append, List.length_singleton] at hk
          rcases Nat.lt_or_ge k m.acc.length with h | h
          · exact .inl h
          · have : k = m.acc.length := by omega
            subst this; exact .inr (View.note_seen _ _)
        · cases he
      · cases he
    · cases he
  | valWrite i v =>
    simp only [exec] at he
    split at he
    · split at he
      · cases he
        refine ⟨View.note_le _ _, .inl rfl, .inl rfl, .inl rfl, fun _ => .inl rfl, fun k hk => ?_, by simp, fun _ _ h => .inl h, .inl rfl, rfl⟩
        simp only [List.length_append, List.length_singleton] at hk
        rcases Nat.lt_or_ge k m.acc.length with h | h
        · exact .inl h
        · have : k = m.acc.length := by omega
          subst this; exact .inr (View.note_seen _ _)
      · cases he
    · cases he
  | valSwap i j =>
    simp only [exec] at he
    split at he
    · split at he
      · cases he
      · split at he
        · split at he
          · cases he
            refine ⟨(View.note_le _ _).trans (View.note_le _ _), .inl rfl, .inl rfl, .inl rfl, fun _ => .inl rfl, fun k hk => ?_, by simp,
              fun _ _ h => .inl h, .inl rfl, rfl⟩
            simp only [List.length_append, List.length_cons, List.length_nil] at hk
            rcases Nat.lt_or_ge k m.acc.length with h | h
            · exact .inl h
            · have : k = m.acc.length ∨ k = m.acc.length + 1 := by omega
              rcases this with rfl | rfl
              · exact .inr ((View.note_le _ _).seen _ (View.note_seen _ _))
              · exact .inr (View.note_seen _ _)
          · cases he
        · cases he
    · cases he

/-- Everybody knows it, or one of the calls. -/
def Cfg.Somebody (κ : Cfg α β) (P : View → Prop) : Prop := P .bot ∨ ∃ c r, κ.calls c = some r ∧ P r.view

/-- Somebody knows the newest message of every location, and every access. -/
structure AInv (κ : Cfg α β) : Prop where
  res : κ.Somebody fun V => κ.mem.res.length ≤ V.res + 1
  written : κ.Somebody fun V => κ.mem.written.length ≤ V.written + 1
  cap : κ.Somebody fun V => κ.mem.cap.length ≤ V.cap + 1
  st : ∀ i, κ.Somebody fun V => (κ.mem.st i).length ≤ V.st i + 1
  acc : ∀ k, k < κ.mem.acc.length → κ.Somebody fun V => V.seen k = true
  allocAt : ∀ i k, κ.mem.allocAt i = some k → k < κ.mem.acc.length

/-- A call goes on, and knows more. -/
theorem Cfg.Somebody.update {c : Cid} {r q : Rec α β} (hc : κ.calls c = some r) (hle : r.view.Le q.view) {m : WMem α}
    {P P' : View → Prop} (hmono : ∀ V V', V.Le V' → P V → P V')
    (hP : (∀ V, P' V ↔ P V) ∨ P' q.view) (h : κ.Somebody P) :
    Cfg.Somebody { κ with mem := m, calls := upd κ.calls c (some q) } P' := by
  rcases hP with hP | hP
  · rcases h with h | ⟨d, r', hd, h⟩
    · exact .inl ((hP _).2 h)
    · rcases Decidable.em (d = c) with hdc | hdc
      · subst hdc
        rw [hc] at hd; cases hd
        exact .inr ⟨d, q, upd_same _ _ _, (hP _).2 (hmono _ _ hle h)⟩
      · exact .inr ⟨d, r', by show upd κ.calls c _ d = _; rw [upd_apply, if_neg hdc]; exact hd, (hP _).2 h⟩
  · exact .inr ⟨c, q, upd_same _ _ _, hP⟩

theorem AInv.update (h : AInv κ) {c : Cid} {r q : Rec α β} (hc : κ.calls c = some r) {m : WMem α} (ht : Tells κ.mem m r.view q.view) :
    AInv { κ with mem := m, calls := upd κ.calls c (some q) } where
  res := by
    refine h.res.update hc ht.le (fun V V' hl hp => Nat.le_trans hp (Nat.succ_le_succ hl.res)) ?_
    exact ht.res.imp (fun h V => by dsimp only; rw [h]) id
  written := by
    refine h.written.update hc ht.le (fun V V' hl hp => Nat.le_trans hp (Nat.succ_le_succ hl.written)) ?_
    exact ht.written.imp (fun h V => by dsimp only; rw [h]) id
  cap := by
    refine h.cap.update hc ht.le (fun V V' hl hp => Nat.le_trans hp (Nat.succ_le_succ hl.cap)) ?_
    exact ht.cap.imp (fun h V => by dsimp only; rw [h]) id
  st i := by
    refine (h.st i).update hc ht.le (fun V V' hl hp => Nat.le_trans hp (Nat.succ_le_succ (hl.st i))) ?_
    exact (ht.st i).imp (fun h V => by dsimp only; rw [h]) id
  acc k hk := by
    rcases ht.acc k hk with h1 | h1
    · exact (h.acc k h1).update hc ht.le (fun V V' hl hp => hl.seen k hp) (.inl fun _ => .rfl)
    · exact .inr ⟨c, q, upd_same _ _ _, h1⟩
  allocAt i k hk := by
    rcases ht.allocAt i k hk with h1 | h1
    · exact Nat.lt_of_lt_of_le (h.allocAt i k h1) ht.longer
    · exact h1

theorem Cfg.Somebody.call {P : View → Prop} {q : Option (Rec α β)} {x : Cid} (hn : κ.calls κ.next = none) (h : κ.Somebody P) :
    Cfg.Somebody { κ with calls := upd κ.calls κ.next q, next := x } P := by
  rcases h with h | ⟨d, r', hd, h⟩
  · exact .inl h
  · refine .inr ⟨d, r', ?_, h⟩
    have hdc : d ≠ κ.next := by rintro rfl; rw [hn] at hd; cases hd
    show upd κ.calls κ.next _ d = _
    rw [upd_apply, if_neg hdc]; exact hd

theorem ainv {m : Mem α} (h : Reach m κ) : AInv κ := by
  induction h with
  | init =>
    refine ⟨.inl ?_, .inl ?_, .inl ?_, fun i => .inl ?_, fun k hk => ?_, fun i k hk => ?_⟩
    · exact Nat.le_refl 1
    · exact Nat.le_refl 1
    · exact Nat.le_refl 1
    · exact Nat.le_refl 1
    · exact absurd hk (Nat.not_lt_zero k)
    · cases hk
  | @step κ κ' hr hs ih =>
    cases hs with
    | call op H V hH hn hp =>
      have hnew := hr.new κ.next (Nat.le_refl _)
      exact ⟨ih.res.call hnew, ih.written.call hnew, ih.cap.call hnew, fun i => (ih.st i).call hnew, fun k hk => (ih.acc k hk).call hnew,
        ih.allocAt⟩
    | act c r a again k t V m b hc hr he => exact ih.update hc (exec_tells he)
    | bad c r a again k t x hc hr he => exact ⟨ih.res, ih.written, ih.cap, ih.st, ih.acc, ih.allocAt⟩
    | ret c r x hc hr => exact ih.update (m := κ.mem) (q := { r with status := .done x }) hc (.view (.refl _))
    | panic c r k hc hr => exact ih.update (m := κ.mem) (q := { r with status := .panicked k }) hc (.view (.refl _))
    | reserveMax q hi => exact ⟨ih.res, ih.written, ih.cap, ih.st, ih.acc, ih.allocAt⟩

/-! ## exclusive access -/

theorem ended_le {H : List Cid} {V : View} (he : Ended κ H V) : ∀ c ∈ H, ∃ r, κ.calls c = some r ∧ r.view.Le V := by
  induction he with
  | nil => simp
  | @done c H V r x hc hs hH ih =>
    intro d hd
    rcases List.mem_cons.1 hd with rfl | hd
    · exact ⟨r, hc, View.le_join_left _ _⟩
    · obtain ⟨r', h1, h2⟩ := ih d hd
      exact ⟨r', h1, h2.trans (View.le_join_right _ _)⟩
  | @panicked c H V r x hc hs hH ih =>
    intro d hd
    rcases List.mem_cons.1 hd with rfl | hd
    · exact ⟨r, hc, View.le_join_left _ _⟩
    · obtain ⟨r', h1, h2⟩ := ih d hd
      exact ⟨r', h1, h2.trans (View.le_join_right _ _)⟩

theorem ended_over {H : List Cid} {V : View} (he : Ended κ H V) : ∀ c ∈ H, ∃ r, κ.calls c = some r ∧ r.Over := by
  induction he with
  | nil => simp
  | @done c H V r x hc hs hH ih =>
    intro d hd
    rcases List.mem_cons.1 hd with rfl | hd
    · exact ⟨r, hc, .inl ⟨x, hs⟩⟩
    · exact ih d hd
  | @panicked c H V r x hc hs hH ih =>
    intro d hd
    rcases List.mem_cons.1 hd with rfl | hd
    · exact ⟨r, hc, .inr ⟨x, hs⟩⟩
    · exact ih d hd

variable {V : View}

theorem Cfg.Exclusive.idle (h : κ.Exclusive V) : κ.Idle := by
  obtain ⟨H, hH, hall⟩ := h
  rintro c op ⟨r, p, hc, -, hp⟩
  obtain ⟨r', hc', ho⟩ := ended_over hH c (hall c r hc)
  rw [hc] at hc'; cases hc'
  rcases ho with ⟨x, hx⟩ | ⟨x, hx⟩ <;> rw [hp] at hx <;> cases hx

theorem Cfg.Exclusive.knows (h : κ.Exclusive V) {P : View → Prop} (hmono : ∀ V V', V.Le V' → P V → P V') (hs : κ.Somebody P) : P V := by
  obtain ⟨H, hH, hall⟩ := h
  rcases hs with hs | ⟨c, r, hc, hs⟩
  · exact hmono _ _ (View.bot_le _) hs
  · obtain ⟨r', hc', hle⟩ := ended_le hH c (hall c r hc)
    rw [hc] at hc'; cases hc'
    exact hmono _ _ hle hs

/-- The owner knows everything. -/
structure Complete (m : WMem α) (V : View) : Prop where
  res : m.res.length ≤ V.res + 1
  written : m.written.length ≤ V.written + 1
  cap : m.cap.length ≤ V.cap + 1
  st : ∀ i, (m.st i).length ≤ V.st i + 1
  acc : ∀ k, k < m.acc.length → V.seen k = true
  allocAt : ∀ i k, m.allocAt i = some k → k < m.acc.length

theorem Cfg.Exclusive.complete {m : Mem α} (hr : Reach m κ) (h : κ.Exclusive V) : Complete κ.mem V := by
  have A := ainv hr
  exact ⟨h.knows (fun V V' hl hp => Nat.le_trans hp (Nat.succ_le_succ hl.res)) A.res,
    h.knows (fun V V' hl hp => Nat.le_trans hp (Nat.succ_le_succ hl.written)) A.written,
    h.knows (fun V V' hl hp => Nat.le_trans hp (Nat.succ_le_succ hl.cap)) A.cap,
    fun i => h.knows (fun V V' hl hp => Nat.le_trans hp (Nat.succ_le_succ (hl.st i))) (A.st i),
    fun k hk => h.knows (fun V V' hl hp => hl.seen k hp) (A.acc k hk), A.allocAt⟩

/-- Only the newest message is left. -/
theorem newest_only {l : List γ} {known t : Nat} {r : γ} (h : l.length ≤ known + 1) (ht : known ≤ t) (hr : l[t]? = some r) :
    l.getLast? = some r := by
  have := lt_of_some hr
  rw [List.getLast?_eq_getElem?, ← hr]
  congr 1; omega

theorem lastVal_eq {l : List (Msg Nat)} {r : Msg Nat} (h : l.getLast? = some r) : lastVal l = r.val := by
  unfold lastVal; rw [h]

/-- The newest state of a position. -/
def lastSt (m : WMem α) (i : Nat) : CState :=
  match (m.st i).getLast? with
  | some r => r.val
  | none => .NONE

theorem lastSt_eq {m : WMem α} {i : Nat} {r : Msg CState} (h : (m.st i).getLast? = some r) : lastSt m i = r.val := by
  unfold lastSt; rw [h]

/-- The memory of the newest messages. -/
def WMem.settled (m : WMem α) : Mem α where
  reserved := lastVal m.res
  written := lastVal m.written
  cap := lastVal m.cap
  alloc := m.alloc
  maxCap := m.maxCap
  growing := false
  pol := m.pol
  st := lastSt m
  val := m.val

theorem Complete.observes (h : Complete κ.mem V) {M : Mem α} (ho : κ.Observes V M) : M = κ.mem.settled := by
  obtain ⟨t1, r1, a1, b1, c1⟩ := ho.reserved
  obtain ⟨t2, r2, a2, b2, c2⟩ := ho.written
  obtain ⟨t3, r3, a3, b3, c3⟩ := ho.cap
  have e1 := lastVal_eq (newest_only h.res a1 b1)
  have e2 := lastVal_eq (newest_only h.written a2 b2)
  have e3 := lastVal_eq (newest_only h.cap a3 b3)
  have e4 : M.st = lastSt κ.mem := by
    funext i
    obtain ⟨t, r, a, b, c⟩ := ho.st i
    rw [lastSt_eq (newest_only (h.st i) a b), c]
  have := ho.val
  have := ho.alloc
  have := ho.growing
  have := ho.maxCap
  have := ho.pol
  cases M
  simp only [WMem.settled, Mem.mk.injEq] at *
  exact ⟨by omega, by omega, by omega, by assumption, by assumption, by assumption, by assumption, by assumption, by assumption⟩

theorem View.In.observes (h : V.In κ.mem) : κ.Observes V κ.mem.settled where
  reserved := by
    obtain ⟨r, h1, h2⟩ := newest_some h.res
    have := h.res
    exact ⟨_, r, by omega, h1, (lastVal_eq h2).symm⟩
  written := by
    obtain ⟨r, h1, h2⟩ := newest_some h.written
    have := h.written
    exact ⟨_, r, by omega, h1, (lastVal_eq h2).symm⟩
  cap := by
    obtain ⟨r, h1, h2⟩ := newest_some h.cap
    have := h.cap
    exact ⟨_, r, by omega, h1, (lastVal_eq h2).symm⟩
  st i := by
    obtain ⟨r, h1, h2⟩ := newest_some (h.st i)
    have := h.st i
    exact ⟨_, r, by omega, h1, (lastSt_eq h2).symm⟩
  val := rfl
  alloc := rfl
  growing := rfl
  maxCap := rfl
  pol := rfl

/-! ## the memory when nobody is running -/

theorem ended_not_growing (h : WInv D mx n κ K K0) (P : PInv n κ K) (hi : κ.Idle) (d : Cid) : ¬ (K d).G := by
  intro hg
  obtain ⟨⟨r, hr, hgr, -⟩, -⟩ := (h.k d).g hg
  have hR := (h.k d).gr_r _ hgr
  have hno : ¬ (K d).A r.val := fun hA => by
    have := ((h.k d).a _ hA).2.1
    rw [lastVal_eq hr] at this
    omega
  rcases hcd : κ.calls d with _ | q
  · exact (P.idle d hcd _).1 hR
  · rcases running_of hcd with ⟨p, hp⟩ | ⟨x, hx⟩ | ⟨k, hk⟩
    · exact hi d _ ⟨q, p, hcd, rfl, hp⟩
    · exact hno ((h.done ⟨q, hcd, rfl, hx⟩).own _ hR)
    · rcases (h.failed ⟨q, hcd, rfl, hk⟩).own with ⟨-, h1⟩ | ⟨-, h1, -⟩ | ⟨-, h1, -⟩
      · exact hno (h1 _ hR)
      · exact h1 _ hgr
      · exact h1 _ hgr

/-- When nobody is running, the capacity is that of the storage, and no element is locked. -/
theorem settled_idle {m : Mem α} {l : List α} (hm : InitMem m l) (h : Reach m κ) (ho : ∀ c op, κ.Called c op → Allowed D op)
    (hi : κ.Idle) : lastVal κ.mem.cap = κ.mem.alloc ∧ (∀ i, ¬ Locked κ.mem i) ∧ κ.mem.pol.good κ.mem.alloc κ.mem.maxCap := by
  obtain ⟨K, K0, hW, hP⟩ := pinv hm h ho
  refine ⟨?_, fun i hl => ?_, hW.g.good⟩
  · obtain ⟨r, -, hr⟩ := newest_some (List.length_pos_iff.2 hW.g.cap_ne)
    rw [lastVal_eq hr]
    exact (hW.g.cap_last (ended_not_growing hW hP hi) r hr).1
  · obtain ⟨c, hc⟩ := hP.held i hl
    obtain ⟨op, hr⟩ := holder_running hW hP hc
    exact hi c op hr

/-! ## overruns -/

/-- A call that panicked because of the maximum capacity has reserved a position that will never be allocated. -/
def OInv (κ : Cfg α β) (K : Cid → Know) : Prop := ∀ c op, κ.Panicked c op .maxCapacity → ∃ j, (K c).R j ∧ κ.mem.alloc ≤ j ∧
  (κ.mem.maxCap ≤ j ∨ ∀ d op, κ.Running d op → ∀ i, (K d).R i → j < i)

theorem Step.panicked (hs : Step κ κ') {c : Cid} {op : Op α β} {k : PanicKind} (h : κ'.Panicked c op k) :
    κ.Panicked c op k ∨ (κ'.mem = κ.mem ∧ ∃ r, κ.calls c = some r ∧ r.op = op ∧ r.status = .running (.panic k)) := by
  obtain ⟨q, hq, ho, hk⟩ := h
  have key : ∀ (d : Cid) (x : Rec α β), upd κ.calls d (some x) c = some q → κ.calls c = some q ∨ (c = d ∧ x = q) := by
    intro d x h
    rw [upd_apply] at h
    split at h
    · next e => cases h; exact .inr ⟨e, rfl⟩
    · exact .inl h
  cases hs with
  | call op' H V hH hn hp =>
    rcases key _ _ hq with h | ⟨-, rfl⟩
    · exact .inl ⟨q, h, ho, hk⟩
    · cases hk
  | act c' r a again f t V m b hc hr he =>
    rcases key _ _ hq with h | ⟨-, rfl⟩
    · exact .inl ⟨q, h, ho, hk⟩
    · cases hk
  | bad c' r a again f t x hc hr he => exact .inl ⟨q, hq, ho, hk⟩
  | ret c' r x hc hr =>
    rcases key _ _ hq with h | ⟨-, rfl⟩
    · exact .inl ⟨q, h, ho, hk⟩
    · cases hk
  | panic c' r k' hc hr =>
    rcases key _ _ hq with h | ⟨rfl, rfl⟩
    · exact .inl ⟨q, h, ho, hk⟩
    · cases hk
      exact .inr ⟨rfl, r, hc, ho, hr⟩
  | reserveMax n hi => exact .inl ⟨q, hq, ho, hk⟩

theorem Step.running (hs : Step κ κ') (hn : ∀ d, κ.next ≤ d → κ.calls d = none) {c : Cid} {op : Op α β} (h : κ'.Running c op) :
    κ.Running c op ∨ κ.calls c = none := by
  obtain ⟨q, p, hq, ho, hk⟩ := h
  have key : ∀ (d : Cid) (x : Rec α β), upd κ.calls d (some x) c = some q → κ.calls c = some q ∨ (c = d ∧ x = q) := by
    intro d x h
    rw [upd_apply] at h
    split at h
    · next e => cases h; exact .inr ⟨e, rfl⟩
    · exact .inl h
  cases hs with
  | call op' H V hH hn' hp =>
    rcases key _ _ hq with h | ⟨rfl, rfl⟩
    · exact .inl ⟨q, p, h, ho, hk⟩
    · exact .inr (hn _ (Nat.le_refl _))
  | act c' r a again f t V m b hc hr he =>
    rcases key _ _ hq with h | ⟨rfl, rfl⟩
    · exact .inl ⟨q, p, h, ho, hk⟩
    · exact .inl ⟨r, _, hc, ho, hr⟩
  | bad c' r a again f t x hc hr he => exact .inl ⟨q, p, hq, ho, hk⟩
  | ret c' r x hc hr =>
    rcases key _ _ hq with h | ⟨rfl, rfl⟩
    · exact .inl ⟨q, p, h, ho, hk⟩
    · cases hk
  | panic c' r k' hc hr =>
    rcases key _ _ hq with h | ⟨rfl, rfl⟩
    · exact .inl ⟨q, p, h, ho, hk⟩
    · cases hk
  | reserveMax n hi => exact .inl ⟨q, p, hq, ho, hk⟩

/-- The storage and its maximum capacity change by allocations and while nobody is running. -/
theorem Step.storage (hs : Step κ κ') : (κ'.mem.maxCap = κ.mem.maxCap ∧ (κ'.mem.alloc = κ.mem.alloc ∨ κ'.mem.cap = κ.mem.cap)) ∨
    (κ'.Idle ∧ κ'.mem.alloc = κ.mem.alloc) := by
  cases hs with
  | call op' H V hH hn hp => exact .inl ⟨rfl, .inl rfl⟩
  | act c' r a again f t V m b hc hr he => exact .inl ⟨(exec_tells he).max, (exec_tells he).alloc⟩
  | bad c' r a again f t x hc hr he => exact .inl ⟨rfl, .inl rfl⟩
  | ret c' r x hc hr => exact .inl ⟨rfl, .inl rfl⟩
  | panic c' r k' hc hr => exact .inl ⟨rfl, .inl rfl⟩
  | reserveMax n hi => exact .inr ⟨hi, rfl⟩

/-- Whoever has allocated and not yet published is running. -/
theorem grower_running (h : WInv D mx n κ K K0) (P : PInv n κ K) {d : Cid} (hg : (K d).G) : ∃ op, κ.Running d op := by
  obtain ⟨⟨r, hr, hgr, -⟩, -⟩ := (h.k d).g hg
  have hR := (h.k d).gr_r _ hgr
  have hno : ¬ (K d).A r.val := fun hA => by
    have := ((h.k d).a _ hA).2.1
    rw [lastVal_eq hr] at this
    omega
  rcases hcd : κ.calls d with _ | q
  · exact absurd hR (P.idle d hcd _).1
  · rcases running_of hcd with ⟨p, hp⟩ | ⟨x, hx⟩ | ⟨k, hk⟩
    · exact ⟨_, q, p, hcd, rfl, hp⟩
    · exact absurd ((h.done ⟨q, hcd, rfl, hx⟩).own _ hR) hno
    · rcases (h.failed ⟨q, hcd, rfl, hk⟩).own with ⟨-, h1⟩ | ⟨-, h1, -⟩ | ⟨-, h1, -⟩
      · exact absurd (h1 _ hR) hno
      · exact absurd hgr (h1 _)
      · exact absurd hgr (h1 _)

theorem cap_le_alloc (h : WInv D mx n κ K K0) : lastVal κ.mem.cap ≤ κ.mem.alloc := by
  obtain ⟨r, hr, hl⟩ := newest_some (List.length_pos_iff.2 h.g.cap_ne)
  rw [lastVal_eq hl]
  refine Nat.le_of_not_lt fun hlt => ?_
  have h1 := h.g.cap_msg _ r hr (r.val - 1) (by omega)
  unfold WMem.usable at h1
  rw [Bool.and_eq_true, decide_eq_true_eq] at h1
  omega

theorem OInv.step {K' K0' : Cid → Know} (h : WInv D mx n κ K K0) (P : PInv n κ K) (h' : WInv D mx n κ' K' K0') (P' : PInv n κ' K')
    (hl : Later κ κ' K K') (hn : ∀ d, κ.next ≤ d → κ.calls d = none) (hs : Step κ κ') (O : OInv κ K) : OInv κ' K' := by
  intro c op hp
  have hmax : κ'.mem.alloc ≤ κ'.mem.maxCap := κ'.mem.pol.good_le h'.g.good
  rcases hs.panicked hp with hp | ⟨hm, r, hc, rfl, hr⟩
  · obtain ⟨j, hj, ha, hor⟩ := O c op hp
    refine ⟨j, hl.r c j hj, ?_⟩
    have hlt : j < lastVal κ.mem.res := Nat.lt_of_lt_of_le ((h.k c).r_rk j hj) (h.k c).rk.1
    rcases hs.storage with ⟨h1, h2⟩ | ⟨h1, h2⟩
    · rcases hor with hor | hor
      · exact ⟨by omega, .inl (by omega)⟩
      · have hrun : ∀ d op, κ'.Running d op → ∀ i, (K' d).R i → j < i := by
          intro d op hd i hi
          rcases hl.new d i hi with h3 | h3
          · rcases hs.running hn hd with h4 | h4
            · exact hor d op h4 i h3
            · exact absurd h3 (P.idle d h4 i).1
          · exact Nat.lt_of_lt_of_le hlt h3
        refine ⟨?_, .inr hrun⟩
        rcases h2 with h2 | h2
        · omega
        · refine Nat.le_of_not_lt fun hja => ?_
          have hcap := cap_le_alloc h
          obtain ⟨q, -, hq⟩ := newest_some (List.length_pos_iff.2 h'.g.cap_ne)
          have hqv : q.val = lastVal κ.mem.cap := by rw [← lastVal_eq hq, h2]
          by_cases hG : ∃ d, (K' d).G
          · obtain ⟨d, hG⟩ := hG
            obtain ⟨op', hrn⟩ := grower_running h' P' hG
            obtain ⟨⟨r, hr, hgr, -⟩, -⟩ := (h'.k d).g hG
            rw [hq] at hr; cases hr
            have := hrun d op' hrn _ ((h'.k d).gr_r _ hgr)
            omega
          · have := (h'.g.cap_last (fun d hd => hG ⟨d, hd⟩) q hq).1
            omega
    · exact ⟨by omega, .inr fun d op' hd => absurd hd (h1 d op')⟩
  · have hf := h.fits c r hc
    unfold Fits at hf
    rw [hr] at hf
    have hf : Failed D κ.mem.maxCap r.op (K0 c) (K c) .maxCapacity := hf
    rcases hf.own with ⟨h1, -⟩ | ⟨-, -, ⟨j, hj, hmj⟩, -⟩ | ⟨h1, -⟩
    · exact absurd rfl h1
    · rw [hm] at hmax ⊢
      exact ⟨j, hl.r c j hj, by omega, .inl hmj⟩
    · exact absurd rfl h1

theorem oinv {m : Mem α} {l : List α} (hm : InitMem m l) (h : Reach m κ) (ho : ∀ c op, κ.Called c op → Allowed D op) :
    ∃ K K0, WInv D m.maxCap l.length κ K K0 ∧ PInv l.length κ K ∧ OInv κ K := by
  induction h with
  | init => exact ⟨_, _, winv_init hm, pinv_init hm, fun c op ⟨r, hr, _⟩ => by cases hr⟩
  | step hr hs ih =>
    obtain ⟨K, K0, hi, hP, hO⟩ := ih (fun c op hc => ho c op (Step.called hs (Reach.new hr) hc))
    obtain ⟨K', K0', h1, h2, h3⟩ := PInv.step hi hP hs ho (Reach.exceeds (.step hr hs) hm ho)
    exact ⟨K', K0', h1, h2, hO.step hi hP h1 h2 h3 (Reach.new hr) hs⟩

/-- Somebody has reserved what does not exist. -/
theorem overrun_of {m : Mem α} {l : List α} (hm : InitMem m l) (h : Reach m κ) (ho : ∀ c op, κ.Called c op → Allowed D op)
    {c : Cid} {op : Op α β} (hp : κ.Panicked c op .maxCapacity) : κ.mem.alloc < lastVal κ.mem.res := by
  obtain ⟨K, K0, hW, -, hO⟩ := oinv hm h ho
  obtain ⟨j, hj, ha, -⟩ := hO c op hp
  have := (hW.k c).r_rk j hj
  have := (hW.k c).rk.1
  omega

theorem usable_lt {m : WMem α} {i : Nat} (h : m.usable V i = true) : i < m.alloc := by
  unfold WMem.usable at h
  rw [Bool.and_eq_true, decide_eq_true_eq] at h
  exact h.1

/-- Everything that is reserved exists, unless somebody failed. -/
theorem reserved_exists {m : Mem α} {l : List α} (hm : InitMem m l) (h : Reach m κ) (ho : ∀ c op, κ.Called c op → Allowed D op)
    (hi : κ.Idle) (h1 : ∀ c op, ¬ κ.Panicked c op .maxCapacity) (h2 : ∀ c f, ¬ κ.Panicked c (.pushForIdx f) .userCode) :
    lastVal κ.mem.res ≤ κ.mem.alloc := by
  obtain ⟨K, K0, hW, hP⟩ := pinv hm h ho
  refine Nat.le_of_not_lt fun hlt => ?_
  have key : ∀ c, ¬ (K c).A κ.mem.alloc := fun c hA => Nat.lt_irrefl _ (usable_lt ((hW.k c).a _ hA).1)
  by_cases hil : κ.mem.alloc < l.length
  · exact key 0 (hW.zero _ hil).2.1
  · obtain ⟨c, hR⟩ := hP.cover _ (Nat.le_of_not_lt hil) hlt
    rcases hcd : κ.calls c with _ | q
    · exact (hP.idle c hcd _).1 hR
    · rcases running_of hcd with ⟨p, hp⟩ | ⟨x, hx⟩ | ⟨k, hk⟩
      · exact hi c _ ⟨q, p, hcd, rfl, hp⟩
      · exact key c ((hW.done ⟨q, hcd, rfl, hx⟩).own _ hR)
      · rcases (hW.failed ⟨q, hcd, rfl, hk⟩).own with ⟨-, h3⟩ | ⟨rfl, -⟩ | ⟨-, -, f, h3, rfl⟩
        · exact key c (h3 _ hR)
        · exact h1 c _ ⟨q, hcd, rfl, hk⟩
        · exact h2 c f ⟨q, hcd, h3, hk⟩

end Verif.Weak
