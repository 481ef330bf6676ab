import Verif.Props.Starvation
import Verif.Props.Progress
import Verif.Proof.StrongFair

/-!
# C22, C08: strongly fair scheduling

`C22_starvation` shows that with fair scheduling alone a call may wait for an element forever. With strongly fair
scheduling every call ends.
-/

namespace Verif

variable {α β : Type} {m : Mem α} {l : List α}

/-- **C22, C08.** Under every strongly fair scheduling every call ends (growth calls, reads, iterations, swaps and all
other operations on elements), even if new calls are made forever. -/
theorem C22_strongly_fair (hm : InitMem m l) {κ : Nat → Cfg α β} (h : InfExec m l κ) (hf : StronglyFair κ)
    (hp : ∀ t, (κ t).GrowthIntact) (hsw : ∀ t c op, (κ t).Called c op → op.SwapsUp) {t : Nat} {c : Cid} {op : Op α β}
    (hc : (κ t).Called c op) : ∃ t', (∃ x, (κ t').Returned c op x) ∨ (∃ k, (κ t').Panicked c op k) := by
  obtain ⟨t', ⟨op', ct, st, s⟩, x, hc', he⟩ := h.ends_strong hm hf.except .empty (E := fun _ => False)
    (fun _ hh => hh.elim) (fun _ _ _ _ _ _ _ _ hh => hh) hp (fun t c op _ => hsw t c op) hc id (fun _ _ hh => hh)
  have : op' = op := by
    have h1 : (κ (max t t')).Called c op := (h.exec _).called_mono hm (Nat.le_max_left t t') (Nat.le_refl _) hc
    have h2 : (κ (max t t')).Called c op' :=
      (h.exec _).called_mono hm (Nat.le_max_right t t') (Nat.le_refl _) ⟨ct, st, s, hc'⟩
    exact h1.unique h2
  subst this
  cases s with
  | running p => cases he
  | done x et fin => exact ⟨t', .inl ⟨x, ct, st, et, fin, hc'⟩⟩
  | panicked k et fin => exact ⟨t', .inr ⟨k, ct, st, et, fin, hc'⟩⟩

/-- **C20 (partial).** A `swap` of positions below a length that was reported before it was invoked does not return `false`, whatever
other calls do. Missing for the full statement: elements that no call has counted yet (`C20_false_in_bounds`). -/
theorem C20_counted_partial (hm : InitMem m l) {κ : Cfg α β} (h : Reach m l κ) {c d : Cid} {i j n1 : Nat} {op1 : Op α β}
    {x1 : Ret α β} (h1 : κ.Returned d op1 x1) (r1 : op1.ReportsLen n1 x1) (hb : κ.Before d c) (hi : i < n1) (hj : j < n1) :
    ¬ κ.Returned c (.swap .spinning i j) (.bool false) := by
  intro h2
  have hI := h.inv hm
  obtain ⟨ct, st, et, fin, hc⟩ := h1
  obtain ⟨ct', st', et', fin', hd⟩ := h2
  obtain ⟨e, hinfo⟩ := hI.returned hc
  obtain ⟨e', hinfo'⟩ := hI.returned hd
  have hl := (hinfo.lenOK r1).1
  obtain ⟨q1, q2, g1, g2, hb⟩ := hb
  rw [hc] at g1; rw [hd] at g2
  simp only [Option.some.injEq] at g1 g2
  subst g1 g2
  obtain ⟨t, fin1, he, hev⟩ := hI.before hc hd hb
  simp only [Status.ended, Option.some.injEq, Prod.mk.injEq] at he
  obtain ⟨rfl, rfl⟩ := he
  rcases hinfo'.out with ⟨k, -, -, -, -, hx, -⟩ | ⟨-, -, ⟨k, hl', hk⟩ | hk⟩
  · cases hx
  · have h1 := hl.written
    have h2 := hl'.low
    have h3 := hev.written
    simp only at h3
    omega
  · cases hk

/-- **C21 (partial).** Under every strongly fair scheduling, `swap(i, j)` of different positions below a length that was reported
before it was invoked returns `true`, whatever other calls do. Missing for the full statement: `i = j`, for which it is false
(`C21_self_swap_hangs`), opposite swaps (`C22_opposite_swaps_deadlock`), and elements that no call has counted yet
(`C20_false_in_bounds`). -/
theorem C21_concurrent_partial (hm : InitMem m l) {κ : Nat → Cfg α β} (h : InfExec m l κ) (hf : StronglyFair κ)
    (hp : ∀ t, (κ t).GrowthIntact) (hsw : ∀ t c op, (κ t).Called c op → op.SwapsUp) {t : Nat} {c d : Cid} {i j n1 : Nat}
    {op1 : Op α β} {x1 : Ret α β} (hc : (κ t).Called c (.swap .spinning i j)) (h1 : (κ t).Returned d op1 x1)
    (r1 : op1.ReportsLen n1 x1) (hb : (κ t).Before d c) (hi : i < n1) (hj : j < n1) :
    ∃ t', (κ t').Returned c (.swap .spinning i j) (.bool true) := by
  obtain ⟨t', ⟨x, hr⟩ | ⟨k, hr⟩⟩ := C22_strongly_fair hm h hf hp hsw hc
  · have hnf : x ≠ .bool false := by
      rintro rfl
      obtain ⟨ct, st, et, fin, e1⟩ := h1
      obtain ⟨ct', st', et', fin', e2⟩ := hr
      have f1 := h.ended_mono hm (Nat.le_max_left t t') e1 rfl
      have f2 := h.ended_mono hm (Nat.le_max_right t t') e2 rfl
      obtain ⟨q1, q2, g1, g2, t0, f, g3, g4⟩ := hb
      rw [e1] at g1
      simp only [Option.some.injEq] at g1
      subst g1
      obtain ⟨q3, g5, -, g6, -⟩ := (h.exec (max t t')).rec_mono hm g2 (Nat.le_max_left t t') (Nat.le_refl _)
      exact C20_counted_partial hm ((h.exec _).reach (Nat.le_refl (max t t'))) ⟨_, _, _, _, f1⟩ r1
        ⟨_, q3, f1, g5, t0, f, g3, by rw [g6]; exact g4⟩ hi hj ⟨_, _, _, _, f2⟩
    obtain ⟨ct, st, et, fin, hcc⟩ := hr
    obtain ⟨dd, hinfo⟩ := (h.inv hm t').returned hcc
    rcases hinfo.out with ⟨k, -, -, -, -, rfl, -⟩ | ⟨rfl, -⟩
    · exact ⟨t', ct, st, et, fin, hcc⟩
    · exact absurd rfl hnf
  · obtain ⟨ct, st, et, fin, hcc⟩ := hr
    obtain ⟨U, dd, hinfo⟩ := (h.inv hm t').panicked hcc
    exact hinfo.out.elim

/-! ## An execution that meets the hypotheses

Infinitely many pairs of overlapping `get_cloned(0)`; in each pair the second call finds the element locked by the first
one and has to wait. -/

namespace Pairs
open Demo Starve

abbrev P := Prog Nat (Ret Nat Nat)

/-- Of calls `d` and `d + 1`, these are about to do `x` and `y`; `none`: not made yet, or over. -/
def two (d : Cid) (x y : Option P) (c : Cid) : Option P := if c = d then x else if c = Nat.succ d then y else none

theorem succ_ne (d : Cid) : (Nat.succ d : Cid) ≠ d := Nat.ne_of_gt (Nat.lt_succ_self d)

theorem two_a {d : Cid} {x y : Option P} : two d x y d = x := if_pos rfl

theorem two_b {d : Cid} {x y : Option P} : two d x y (Nat.succ d) = y := by
  unfold two
  rw [if_neg (succ_ne d), if_pos rfl]

theorem two_oa {d : Cid} {x x' y : Option P} {c : Cid} (h : c ≠ d) : two d x y c = two d x' y c := by
  unfold two
  rw [if_neg h, if_neg h]

theorem two_ob {d : Cid} {x y y' : Option P} {c : Cid} (h : c ≠ Nat.succ d) : two d x y c = two d x y' c := by
  unfold two
  rw [if_neg h, if_neg h]

/-- The running calls are those in `f`. -/
structure S (κ : Cfg Nat Nat) (m : Mem Nat) (n : Nat) (f : Cid → Option P) : Prop where
  mem : κ.w.mem = m
  next : κ.next = n
  on : ∀ c p, f c = some p → ∃ ct st, κ.calls c = some ⟨.getCloned 0, ct, st, .running p⟩
  off : ∀ c r, κ.calls c = some r → r.op = .getCloned 0 ∧ ((f c).isSome ∨ ∃ x t w, r.status = .done x t w)

variable {κ : Cfg Nat Nat} {c d : Cid} {m m' : Mem Nat} {n : Nat} {f f' : Cid → Option P} {a : Act Nat}
  {again : a.Resp → Bool} {k : a.Resp → P} {b : a.Resp}

theorem go' (h : S κ m n f) (hc : f c = some (.step a again k)) (he : a.exec m = some (m', b))
    (h1 : f' c = some (if again b then .step a again k else k b)) (h2 : ∀ c', c' ≠ c → f' c' = f c') :
    ∃ κ', κ.perform (.go c) = some κ' ∧ S κ' m' n f' := by
  obtain ⟨hm, hn, hon, hoff⟩ := h
  obtain ⟨ct, st, h3⟩ := hon c _ hc
  obtain ⟨w', he', hm'⟩ := exec_some (c := c) (w := κ.w) (by rw [hm]; exact he)
  refine ⟨{ κ with
      w := w'
      calls := κ.setStatus c ⟨.getCloned 0, ct, st, .running (.step a again k)⟩
        (.running (if again b then .step a again k else k b))
      clock := κ.clock + 1 }, by simp only [Cfg.perform, h3, he'], hm', hn, ?_, ?_⟩
  · intro c' p hp
    by_cases hcc : c' = c
    · subst hcc
      rw [h1] at hp
      simp only [Option.some.injEq] at hp
      subst hp
      exact ⟨ct, st, setStatus_self⟩
    · rw [h2 c' hcc] at hp
      obtain ⟨ct', st', h4⟩ := hon c' p hp
      exact ⟨ct', st', (setStatus_other hcc).trans h4⟩
  · intro c' r hr
    by_cases hcc : c' = c
    · subst hcc
      have := setStatus_self.symm.trans hr
      simp only [Option.some.injEq] at this
      subst this
      exact ⟨rfl, .inl (by rw [h1]; rfl)⟩
    · rw [h2 c' hcc]
      exact hoff c' r ((setStatus_other hcc).symm.trans hr)

theorem ret' {x : Ret Nat Nat} (h : S κ m n f) (hc : f c = some (.ret x)) (h1 : f' c = none) (h2 : ∀ c', c' ≠ c → f' c' = f c') :
    ∃ κ', κ.perform (.go c) = some κ' ∧ S κ' m n f' := by
  obtain ⟨hm, hn, hon, hoff⟩ := h
  obtain ⟨ct, st, h3⟩ := hon c _ hc
  refine ⟨{ κ with
      calls := κ.setStatus c ⟨.getCloned 0, ct, st, .running (.ret x)⟩ (.done x κ.clock κ.w)
      clock := κ.clock + 1 }, by simp only [Cfg.perform, h3], hm, hn, ?_, ?_⟩
  · intro c' p hp
    by_cases hcc : c' = c
    · subst hcc
      rw [h1] at hp
      cases hp
    · rw [h2 c' hcc] at hp
      obtain ⟨ct', st', h4⟩ := hon c' p hp
      exact ⟨ct', st', (setStatus_other hcc).trans h4⟩
  · intro c' r hr
    by_cases hcc : c' = c
    · subst hcc
      have := setStatus_self.symm.trans hr
      simp only [Option.some.injEq] at this
      subst this
      exact ⟨rfl, .inr ⟨_, _, _, rfl⟩⟩
    · rw [h2 c' hcc]
      exact hoff c' r ((setStatus_other hcc).symm.trans hr)

theorem call' (h : S κ m n f) (h0 : f n = none) (h1 : f' n = some (Op.getCloned 0 : Op Nat Nat).prog) (h2 : ∀ c', c' ≠ n → f' c' = f c') :
    ∃ κ', κ.perform (.call (.getCloned 0)) = some κ' ∧ S κ' m (n + 1) f' := by
  obtain ⟨hm, rfl, hon, hoff⟩ := h
  refine ⟨{ κ with
      calls := upd κ.calls κ.next (some ⟨.getCloned 0, κ.clock, κ.w, .running (Op.getCloned 0 : Op Nat Nat).prog⟩)
      next := κ.next + 1
      clock := κ.clock + 1 }, rfl, hm, rfl, ?_, ?_⟩
  · intro c' p hp
    simp only [upd_apply]
    split
    · rename_i hcc
      subst hcc
      rw [h1] at hp
      simp only [Option.some.injEq] at hp
      subst hp
      exact ⟨_, _, rfl⟩
    · rename_i hcc
      rw [h2 c' hcc] at hp
      exact hon c' p hp
  · intro c' r hr
    simp only [upd_apply] at hr
    split at hr
    · rename_i hcc
      subst hcc
      simp only [Option.some.injEq] at hr
      subst hr
      exact ⟨rfl, .inl (by rw [h1]; rfl)⟩
    · rename_i hcc
      rw [h2 c' hcc]
      exact hoff c' r hr

theorem blocked' (h : S κ m n f) (hc : f c = some (.step a again k)) (he : a.exec m = some (m, b)) (hb : again b = true) :
    κ.Blocked c := by
  obtain ⟨ct, st, h3⟩ := h.on c _ hc
  refine ⟨⟨_, _, _, _, h3⟩, ?_⟩
  rintro κ' ⟨r, hr, hcase⟩
  rw [h3] at hr
  simp only [Option.some.injEq] at hr
  subst hr
  rcases hcase with ⟨a', again', k', w', b', h1, h2, rfl⟩ | ⟨x, h1, -⟩ | ⟨x, h1, -⟩
  · simp only [Status.running.injEq, Prog.step.injEq] at h1
    obtain ⟨rfl, h4, h5⟩ := h1
    have h4 := eq_of_heq h4
    have h5 := eq_of_heq h5
    subst h4 h5
    obtain ⟨w2, he', hm'⟩ := exec_some (c := c) (w := κ.w) (by rw [h.mem]; exact he)
    rw [he'] at h2
    simp only [Option.some.injEq, Prod.mk.injEq] at h2
    obtain ⟨rfl, rfl⟩ := h2
    refine ⟨?_, by show w2.mem = κ.w.mem; rw [hm', h.mem]⟩
    refine setStatus_self.trans ?_
    rw [h3, hb]
    rfl
  · cases h1
  · cases h1

variable {x y : Option P}

theorem goA (h : S κ m n (two d (some (.step a again k)) y)) (he : a.exec m = some (m', b)) :
    ∃ κ', κ.perform (.go d) = some κ' ∧ S κ' m' n (two d (some (if again b then .step a again k else k b)) y) :=
  go' h two_a he two_a fun _ => two_oa

theorem goB (h : S κ m n (two d x (some (.step a again k)))) (he : a.exec m = some (m', b)) :
    ∃ κ', κ.perform (.go (Nat.succ d)) = some κ' ∧ S κ' m' n (two d x (some (if again b then .step a again k else k b))) :=
  go' h two_b he two_b fun _ => two_ob

theorem retA {z : Ret Nat Nat} (h : S κ m n (two d (some (.ret z)) y)) :
    ∃ κ', κ.perform (.go d) = some κ' ∧ S κ' m n (two d none y) := ret' h two_a two_a fun _ => two_oa

theorem retB {z : Ret Nat Nat} (h : S κ m n (two d x (some (.ret z)))) :
    ∃ κ', κ.perform (.go (Nat.succ d)) = some κ' ∧ S κ' m n (two d x none) := ret' h two_b two_b fun _ => two_ob

theorem callA (h : S κ m d (two d none y)) :
    ∃ κ', κ.perform (.call (.getCloned 0)) = some κ' ∧ S κ' m (d + 1) (two d (some (Op.getCloned 0 : Op Nat Nat).prog) y) :=
  call' h two_a two_a fun _ => two_oa

theorem callB (h : S κ m (d + 1) (two d x none)) :
    ∃ κ', κ.perform (.call (.getCloned 0)) = some κ' ∧ S κ' m (d + 2) (two d x (some (Op.getCloned 0 : Op Nat Nat).prog)) :=
  call' h two_b two_b fun _ => two_ob

/-- What happens in each round: `0` the two calls are made, `1`, `2`: a step of the first, the second call. -/
def round : List Nat := [0, 1, 1, 1, 0, 2, 2, 2, 1, 2, 1, 1, 1, 2, 2, 2, 2]

/-- The schedule: round `q` runs calls `1 + 2 q` and `2 + 2 q`. -/
def sched (t : Nat) : Choice Nat Nat :=
  match round[t % 17]? with
  | some 1 => .go (1 + 2 * (t / 17))
  | some 2 => .go (Nat.succ (1 + 2 * (t / 17)))
  | _ => .call (.getCloned 0)

/-- The execution. -/
def exec : Nat → Cfg Nat Nat
  | 0 => Cfg.init m0 [10, 20]
  | t + 1 => ((exec t).perform (sched t)).getD (exec t)

theorem exec_succ {t : Nat} {κ' : Cfg Nat Nat} (h : (exec t).perform (sched t) = some κ') : exec (t + 1) = κ' := by
  simp only [exec, h]; rfl

theorem sched_round (q r : Nat) (hr : r < 17) :
    sched (17 * q + r) = match round[r]? with
      | some 1 => .go (1 + 2 * q)
      | some 2 => .go (Nat.succ (1 + 2 * q))
      | _ => .call (.getCloned 0) := by
  have h1 : (17 * q + r) % 17 = r := by omega
  have h2 : (17 * q + r) / 17 = q := by omega
  simp only [sched, h1, h2]

theorem next {q r : Nat} {ch : Choice Nat Nat} {κ κ' : Cfg Nat Nat} (hx : exec (17 * q + r) = κ)
    (hs : sched (17 * q + r) = ch) (hp : κ.perform ch = some κ') :
    exec (17 * q + (r + 1)) = κ' ∧ ((exec (17 * q + r)).perform (sched (17 * q + r))).isSome := by
  subst hx hs
  exact ⟨exec_succ hp, by rw [hp]; rfl⟩

theorem unlocked : ({ m0 with st := upd m1.st 0 .SOME } : Mem Nat) = m0 := by
  have : upd m1.st 0 .SOME = m0.st := by
    funext i
    simp only [m1, upd_apply]
    split
    · rename_i hi; subst hi; rfl
    · rfl
  rw [this]

theorem period (q : Nat) (h : S (exec (17 * q)) m0 (1 + 2 * q) fun _ => none) :
    (S (exec (17 * (q + 1))) m0 (1 + 2 * (q + 1)) fun _ => none) ∧
    (∀ r, r < 17 → ((exec (17 * q + r)).perform (sched (17 * q + r))).isSome) ∧
    (exec (17 * q + 9)).Blocked (Nat.succ (1 + 2 * q)) := by
  have h : S (exec (17 * q)) m0 (1 + 2 * q) (two (1 + 2 * q) none none) := by
    have : two (1 + 2 * q) none none = fun _ => none := by
      funext c
      unfold two
      split
      · rfl
      · split <;> rfl
    rw [this]; exact h
  have x0 : exec (17 * q + 0) = exec (17 * q) := rfl
  obtain ⟨κ1, e1, h1⟩ := callA h
  obtain ⟨x1, p1⟩ := next x0 (sched_round q 0 (by decide)) e1
  obtain ⟨κ2, e2, h2⟩ := goA h1 (m' := m0) rfl
  obtain ⟨x2, p2⟩ := next x1 (sched_round q 1 (by decide)) e2
  obtain ⟨κ3, e3, h3⟩ := goA h2 (m' := m0) rfl
  obtain ⟨x3, p3⟩ := next x2 (sched_round q 2 (by decide)) e3
  obtain ⟨κ4, e4, h4⟩ := goA h3 (m' := m0) rfl
  obtain ⟨x4, p4⟩ := next x3 (sched_round q 3 (by decide)) e4
  obtain ⟨κ5, e5, h5⟩ := callB h4
  obtain ⟨x5, p5⟩ := next x4 (sched_round q 4 (by decide)) e5
  obtain ⟨κ6, e6, h6⟩ := goB h5 (m' := m0) rfl
  obtain ⟨x6, p6⟩ := next x5 (sched_round q 5 (by decide)) e6
  obtain ⟨κ7, e7, h7⟩ := goB h6 (m' := m0) rfl
  obtain ⟨x7, p7⟩ := next x6 (sched_round q 6 (by decide)) e7
  obtain ⟨κ8, e8, h8⟩ := goB h7 (m' := m0) rfl
  obtain ⟨x8, p8⟩ := next x7 (sched_round q 7 (by decide)) e8
  obtain ⟨κ9, e9, h9⟩ := goA h8 (m' := m1) rfl
  obtain ⟨x9, p9⟩ := next x8 (sched_round q 8 (by decide)) e9
  obtain ⟨κ10, e10, h10⟩ := goB h9 (m' := m1) rfl
  obtain ⟨x10, p10⟩ := next x9 (sched_round q 9 (by decide)) e10
  obtain ⟨κ11, e11, h11⟩ := goA h10 (m' := m1) rfl
  obtain ⟨x11, p11⟩ := next x10 (sched_round q 10 (by decide)) e11
  obtain ⟨κ12, e12, h12⟩ := goA h11 (m' := { m0 with st := upd m1.st 0 .SOME }) rfl
  obtain ⟨x12, p12⟩ := next x11 (sched_round q 11 (by decide)) e12
  rw [unlocked] at h12
  obtain ⟨κ13, e13, h13⟩ := retA h12
  obtain ⟨x13, p13⟩ := next x12 (sched_round q 12 (by decide)) e13
  obtain ⟨κ14, e14, h14⟩ := goB h13 (m' := m1) rfl
  obtain ⟨x14, p14⟩ := next x13 (sched_round q 13 (by decide)) e14
  obtain ⟨κ15, e15, h15⟩ := goB h14 (m' := m1) rfl
  obtain ⟨x15, p15⟩ := next x14 (sched_round q 14 (by decide)) e15
  obtain ⟨κ16, e16, h16⟩ := goB h15 (m' := { m0 with st := upd m1.st 0 .SOME }) rfl
  obtain ⟨x16, p16⟩ := next x15 (sched_round q 15 (by decide)) e16
  rw [unlocked] at h16
  obtain ⟨κ17, e17, h17⟩ := retB h16
  obtain ⟨x17, p17⟩ := next x16 (sched_round q 16 (by decide)) e17
  refine ⟨?_, ?_, ?_⟩
  · have : two (1 + 2 * q) none none = fun _ => none := by
      funext c
      unfold two
      split
      · rfl
      · split <;> rfl
    rw [this] at h17
    show S (exec (17 * q + 17)) m0 (1 + 2 * q + 2) fun _ => none
    rw [x17]; exact h17
  · intro r hr
    match r, hr with
    | 0, _ => exact p1
    | 1, _ => exact p2
    | 2, _ => exact p3
    | 3, _ => exact p4
    | 4, _ => exact p5
    | 5, _ => exact p6
    | 6, _ => exact p7
    | 7, _ => exact p8
    | 8, _ => exact p9
    | 9, _ => exact p10
    | 10, _ => exact p11
    | 11, _ => exact p12
    | 12, _ => exact p13
    | 13, _ => exact p14
    | 14, _ => exact p15
    | 15, _ => exact p16
    | 16, _ => exact p17
    | r + 17, hr => exact absurd hr (by omega)
  · rw [x9]
    exact blocked' h9 two_b rfl rfl

theorem inv (q : Nat) : S (exec (17 * q)) m0 (1 + 2 * q) fun _ => none := by
  induction q with
  | zero =>
    refine ⟨rfl, rfl, fun c p h => (by cases h), fun c r h => ?_⟩
    cases h
  | succ q ih => exact (period q ih).1

theorem possible (t : Nat) : ((exec t).perform (sched t)).isSome := by
  have := (period (t / 17) (inv _)).2.1 (t % 17) (Nat.mod_lt _ (by decide))
  rwa [show 17 * (t / 17) + t % 17 = t by omega] at this

theorem infExec : InfExec m0 [10, 20] exec := by
  refine ⟨rfl, fun t => ?_⟩
  obtain ⟨κ', h⟩ := Option.isSome_iff_exists.1 (possible t)
  rw [exec_succ h]
  exact Cfg.perform_step h

/-- Every call is over at the end of its round. -/
theorem over {t : Nat} {c : Cid} {r : Rec Nat Nat} (h : (exec t).calls c = some r) :
    ∃ q r' x t' w, t ≤ 17 * q ∧ (exec (17 * q)).calls c = some r' ∧ r'.op = .getCloned 0 ∧ r'.status = .done x t' w := by
  obtain ⟨r', h1, -⟩ := (infExec.exec (17 * t)).rec_mono init0 h (by omega : t ≤ 17 * t) (Nat.le_refl _)
  obtain ⟨h2, h3 | ⟨x, t', w, h3⟩⟩ := (inv t).off c r' h1
  · cases h3
  · exact ⟨t, r', x, t', w, by omega, h1, h2, h3⟩

theorem never_twice {t s : Nat} {c : Cid} {r r' : Rec Nat Nat} {p : P} {x t' w} (hts : t ≤ s) (h : (exec t).calls c = some r)
    (hd : r.status = .done x t' w) (h' : (exec s).calls c = some r') : r'.status ≠ .running p := by
  have := infExec.ended_mono init0 hts h (x := _) (by rw [hd]; rfl)
  rw [this] at h'
  simp only [Option.some.injEq] at h'
  subst h'
  rw [hd]
  exact fun hh => by cases hh

theorem fair : StronglyFair exec := by
  refine ⟨?_, ?_⟩
  · intro t c op hrun
    obtain ⟨ct, st, p, hc⟩ := hrun
    rcases infExec.stay_or_advance init0 hc rfl with hst | ⟨s, r', hs, -, -, hmv, -⟩
    · obtain ⟨q, r', x, t', w, h1, h2, -, h3⟩ := over hc
      exact absurd rfl (never_twice (Nat.le_refl _) h2 h3 (hst _ h1).1)
    · exact ⟨s, hs, hmv⟩
  · intro c hinf
    exfalso
    obtain ⟨t, -, ⟨op, ct, st, p, hc⟩, -⟩ := hinf 0
    obtain ⟨q, r', x, t', w, h1, h2, -, h3⟩ := over hc
    obtain ⟨s, hs, ⟨op', ct', st', p', hc'⟩, -⟩ := hinf (17 * q)
    exact absurd rfl (never_twice hs h2 h3 hc')

theorem called {t : Nat} {c : Cid} {op : Op Nat Nat} (h : (exec t).Called c op) : op = .getCloned 0 := by
  obtain ⟨ct, st, s, h⟩ := (infExec.exec (17 * t)).called_mono init0 (by omega : t ≤ 17 * t) (Nat.le_refl _) h
  exact ((inv t).off c _ h).1

theorem no_panic {t : Nat} {c : Cid} {op : Op Nat Nat} {k : PanicKind} : ¬ (exec t).Panicked c op k := by
  rintro ⟨ct, st, et, fin, h⟩
  obtain ⟨q, r', x, t', w, h1, h2, -, h3⟩ := over h
  have := infExec.ended_mono init0 h1 h (x := _) rfl
  rw [h2] at this
  simp only [Option.some.injEq] at this
  subst this
  cases h3

end Pairs

/-- The hypotheses of `C22_strongly_fair` are met by an execution with infinitely many calls, infinitely many of which have to
wait. -/
example : InfExec (Demo.mem [10, 20] 2 8) [10, 20] Pairs.exec ∧ StronglyFair Pairs.exec ∧ (∀ t, (Pairs.exec t).GrowthIntact) ∧
    (∀ t c op, (Pairs.exec t).Called c op → op.SwapsUp) ∧ ∀ q, (Pairs.exec (17 * q + 9)).Blocked (2 + 2 * q : Nat) := by
  refine ⟨Pairs.infExec, Pairs.fair, fun t => .of_no_panic fun c op k => Pairs.no_panic, fun t c op h => ?_, fun q => ?_⟩
  · rw [Pairs.called h]; trivial
  · have := (Pairs.period q (Pairs.inv q)).2.2
    rwa [show Nat.succ (1 + 2 * q) = 2 + 2 * q by omega] at this

section counted
open Demo

/-- `len()`, then `get_cloned(0)` up to the moment at which it has locked the element, then `swap(0, 1)`, which has to wait for it. -/
def Demo.counted : List (Choice Nat Nat) :=
  [.call .len] ++ go 1 5 ++ [.call (.getCloned 0)] ++ go 2 5 ++ [.call (.swap .spinning 0 1)] ++ go 3 12 ++ go 2 2 ++ go 3 11

theorem Demo.counted_ops : ∀ c, c < 4 → ∀ op, ((after [10, 20] 2 8 counted).calls c).map Rec.op = some op → op.SwapsUp
  | 0, _, _, h => by cases h
  | 1, _, _, h => by cases h; trivial
  | 2, _, _, h => by cases h; trivial
  | 3, _, _, h => by cases h; exact Nat.zero_lt_one

/-- The hypotheses of `C21_concurrent_partial` (and of `C20_counted_partial`), with a swap that is blocked for a while. -/
example : InfExec (mem [10, 20] 2 8) [10, 20] (forever [10, 20] 2 8 counted) ∧ StronglyFair (forever [10, 20] 2 8 counted) ∧
    (∀ t, (forever [10, 20] 2 8 counted t).GrowthIntact) ∧
    (∀ t c op, (forever [10, 20] 2 8 counted t).Called c op → op.SwapsUp) ∧
    (forever [10, 20] 2 8 counted 24).Called 3 (.swap .spinning 0 1) ∧
    (forever [10, 20] 2 8 counted 24).Blocked 3 ∧
    (forever [10, 20] 2 8 counted 24).Returned 1 .len (.nat 2) ∧ (Op.len : Op Nat Nat).ReportsLen 2 (.nat 2) ∧
    (forever [10, 20] 2 8 counted 24).Before 1 3 := by
  have hposs : Possible [10, 20] 2 8 counted := by unfold Possible; rfl
  have hi : (after [10, 20] 2 8 counted).Idle := idle_of (by decide) (by decide) (reach_after hposs) rfl
  refine ⟨infExec_forever hposs hi rfl, ⟨fair_forever (by decide) (by decide) hposs hi rfl, ?_⟩, ?_, ?_, ?_, ?_, ?_, rfl, ?_⟩
  · intro c hinf
    obtain ⟨t', ht', ⟨op, ct, st, p, hrun⟩, -⟩ := hinf counted.length
    exact absurd hrun (idle_forever hi ht' c op ct st p)
  · intro t
    exact .of_no_panic fun c op k hk => intact_of (by decide) (by decide) (reach_after hposs) rfl
      (panicked_forever (by decide) (by decide) hposs hk)
  · intro t c op hc
    obtain ⟨ct, st, s, hr⟩ := called_forever (by decide) (by decide) hposs hc
    exact counted_ops c (List.mem_range.1 (known (by decide) (by decide) (reach_after hposs) hr)) op (by rw [hr]; rfl)
  · rw [forever_le (by decide)]; exact ⟨_, _, _, rfl⟩
  · have hI := (infExec_forever hposs hi rfl).inv (mem_init _ _ _ (by decide) (by decide)) 24
    rw [forever_le (by decide)] at hI ⊢
    refine ⟨⟨_, _, _, _, rfl⟩, fun κ' hmv => ?_⟩
    have hwf : Cfg.WaitsFor (after [10, 20] 2 8 (counted.take 24)) 3 _ 0 := ⟨rfl, _, _, _, _, rfl, rfl⟩
    have h := hwf.moves hI rfl hmv
    exact ⟨h.2 3, by rw [h.1]⟩
  · rw [forever_le (by decide)]; exact returned_of rfl rfl
  · rw [forever_le (by decide)]; exact before_of rfl rfl (by decide)

end counted

end Verif
