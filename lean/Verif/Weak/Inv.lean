import Verif.Weak.Know

/-!
# Invariant of weak-memory executions

Helper file (no property statements).
-/

namespace Verif.Weak

variable {α β γ : Type}

/-! ## views -/

structure View.Le (a b : View) : Prop where
  res : a.res ≤ b.res
  written : a.written ≤ b.written
  cap : a.cap ≤ b.cap
  st : ∀ i, a.st i ≤ b.st i
  seen : ∀ k : Nat, a.seen k = true → b.seen k = true

theorem View.Le.refl (a : View) : a.Le a := ⟨Nat.le_refl _, Nat.le_refl _, Nat.le_refl _, fun _ => Nat.le_refl _, fun _ h => h⟩

theorem View.Le.trans {a b c : View} (h : a.Le b) (h' : b.Le c) : a.Le c :=
  ⟨Nat.le_trans h.res h'.res, Nat.le_trans h.written h'.written, Nat.le_trans h.cap h'.cap,
    fun i => Nat.le_trans (h.st i) (h'.st i), fun k hk => h'.seen k (h.seen k hk)⟩

theorem View.bot_le (a : View) : View.bot.Le a :=
  ⟨Nat.zero_le _, Nat.zero_le _, Nat.zero_le _, fun _ => Nat.zero_le _, fun _ h => by cases h⟩

theorem View.le_join_left (a b : View) : a.Le (a.join b) :=
  ⟨Nat.le_max_left _ _, Nat.le_max_left _ _, Nat.le_max_left _ _, fun _ => Nat.le_max_left _ _,
    fun k h => by simp [View.join, h]⟩

theorem View.le_join_right (a b : View) : b.Le (a.join b) :=
  ⟨Nat.le_max_right _ _, Nat.le_max_right _ _, Nat.le_max_right _ _, fun _ => Nat.le_max_right _ _,
    fun k h => by simp [View.join, h]⟩

theorem View.read_le (V : View) (o : MOrd) (r : Msg γ) : V.Le (V.read o r) := by
  unfold View.read; split
  · exact View.le_join_left _ _
  · exact .refl _

theorem View.read_acq (V : View) {o : MOrd} (r : Msg γ) (h : o.acq = true) : r.view.Le (V.read o r) := by
  unfold View.read; rw [if_pos h]; exact View.le_join_right _ _

theorem View.atRes_le (V : View) (t : Nat) : V.Le (V.atRes t) :=
  ⟨Nat.le_max_left _ _, Nat.le_refl _, Nat.le_refl _, fun _ => Nat.le_refl _, fun _ h => h⟩
theorem View.atWritten_le (V : View) (t : Nat) : V.Le (V.atWritten t) :=
  ⟨Nat.le_refl _, Nat.le_max_left _ _, Nat.le_refl _, fun _ => Nat.le_refl _, fun _ h => h⟩
theorem View.atCap_le (V : View) (t : Nat) : V.Le (V.atCap t) :=
  ⟨Nat.le_refl _, Nat.le_refl _, Nat.le_max_left _ _, fun _ => Nat.le_refl _, fun _ h => h⟩
theorem View.atSt_le (V : View) (i t : Nat) : V.Le (V.atSt i t) :=
  ⟨Nat.le_refl _, Nat.le_refl _, Nat.le_refl _, fun j => by
    simp only [View.atSt, upd_apply]; split
    · subst_vars; exact Nat.le_max_left _ _
    · exact Nat.le_refl _, fun _ h => h⟩
theorem View.note_le (V : View) (k : Nat) : V.Le (V.note k) :=
  ⟨Nat.le_refl _, Nat.le_refl _, Nat.le_refl _, fun _ => Nat.le_refl _, fun _ h => by simp [View.note, h]⟩

theorem View.atSt_st (V : View) (i t : Nat) : t ≤ (V.atSt i t).st i := by simp [View.atSt]; omega
theorem View.note_seen (V : View) (k : Nat) : (V.note k).seen k = true := by simp [View.note]

theorem View.sees_iff {V : View} {acc : List Access} {p : Access → Bool} :
    V.sees acc p = true ↔ ∀ (k : Nat) a, acc[k]? = some a → p a = true → V.seen k = true := by
  unfold View.sees
  rw [List.all_eq_true]
  constructor
  · intro h k a ha hp
    have hk : k < acc.length := (List.getElem?_eq_some_iff.1 ha).1
    have := h k (List.mem_range.2 hk)
    simp only [ha, Option.any_some, hp, Bool.not_true, Bool.or_false] at this
    exact this
  · intro h k _
    rcases ha : acc[k]? with _ | a
    · simp
    · rcases hp : p a with _ | _
      · simp [hp]
      · simp [h k a ha hp]

/-! ## histories -/

def lastVal (h : List (Msg Nat)) : Nat :=
  match h.getLast? with
  | some r => r.val
  | none => 0

theorem lastVal_append (h : List (Msg Nat)) (r : Msg Nat) : lastVal (h ++ [r]) = r.val := by simp [lastVal]

/-- From message `t` on no value is smaller than `n`. -/
def Above (h : List (Msg Nat)) (t n : Nat) : Prop :=
  n ≤ lastVal h ∧ ∀ (t' : Nat) r, t ≤ t' → h[t']? = some r → n ≤ r.val

theorem Above.mono {h : List (Msg Nat)} {t t' n : Nat} (H : Above h t n) (ht : t ≤ t') : Above h t' n :=
  ⟨H.1, fun s r hs hr => H.2 s r (Nat.le_trans ht hs) hr⟩

theorem Above.le {h : List (Msg Nat)} {t n n' : Nat} (H : Above h t n) (hn : n' ≤ n) : Above h t n' :=
  ⟨Nat.le_trans hn H.1, fun s r hs hr => Nat.le_trans hn (H.2 s r hs hr)⟩

theorem Above.append {h : List (Msg Nat)} {t n : Nat} (H : Above h t n) {r : Msg Nat} (hr : lastVal h ≤ r.val) :
    Above (h ++ [r]) t n := by
  refine ⟨by rw [lastVal_append]; exact Nat.le_trans H.1 hr, fun s q hs hq => ?_⟩
  rw [List.getElem?_append] at hq
  split at hq
  · exact H.2 s q hs hq
  · next hlt =>
    rw [List.getElem?_singleton] at hq
    split at hq
    · injection hq with hq; subst hq; exact Nat.le_trans H.1 hr
    · cases hq

theorem above_zero (h : List (Msg Nat)) (t : Nat) : Above h t 0 := ⟨Nat.zero_le _, fun _ _ _ _ => Nat.zero_le _⟩

/-- Values never decrease in modification order. -/
def Mono (h : List (Msg Nat)) : Prop :=
  ∀ (t t' : Nat) r r', t ≤ t' → h[t]? = some r → h[t']? = some r' → r.val ≤ r'.val

theorem Mono.last {h : List (Msg Nat)} (H : Mono h) {t : Nat} {r : Msg Nat} (hr : h[t]? = some r) :
    r.val ≤ lastVal h := by
  have hlt := (List.getElem?_eq_some_iff.1 hr).1
  unfold lastVal
  have : h.getLast? = h[h.length - 1]? := List.getLast?_eq_getElem?
  rw [this]
  rcases hq : h[h.length - 1]? with _ | q
  · rw [List.getElem?_eq_none_iff] at hq; omega
  · exact H t (h.length - 1) r q (by omega) hr hq

theorem Mono.above {h : List (Msg Nat)} (H : Mono h) {t : Nat} {r : Msg Nat} (hr : h[t]? = some r) :
    Above h t r.val := ⟨H.last hr, fun t' r' ht hr' => H t t' r r' ht hr hr'⟩

theorem getElem?_snoc {h : List γ} {r q : γ} {t : Nat} (hq : (h ++ [r])[t]? = some q) :
    h[t]? = some q ∨ (t = h.length ∧ q = r) := by
  rw [List.getElem?_append] at hq
  split at hq
  · exact .inl hq
  · next hlt =>
    rw [List.getElem?_singleton] at hq
    split at hq
    · injection hq with hq; exact .inr ⟨by omega, hq.symm⟩
    · cases hq

theorem getElem?_snoc_last (h : List γ) (r : γ) : (h ++ [r])[h.length]? = some r := by simp

theorem getElem?_snoc_old {h : List γ} {r q : γ} {t : Nat} (hq : h[t]? = some q) : (h ++ [r])[t]? = some q := by
  rw [List.getElem?_append_left (List.getElem?_eq_some_iff.1 hq).1]; exact hq

theorem Mono.append {h : List (Msg Nat)} (H : Mono h) {r : Msg Nat} (hr : lastVal h ≤ r.val) : Mono (h ++ [r]) := by
  intro t t' q q' ht hq hq'
  rcases getElem?_snoc hq with h1 | ⟨h1, rfl⟩
  · rcases getElem?_snoc hq' with h2 | ⟨h2, rfl⟩
    · exact H t t' q q' ht h1 h2
    · exact Nat.le_trans (H.last h1) hr
  · rcases getElem?_snoc hq' with h2 | ⟨h2, rfl⟩
    · have := (List.getElem?_eq_some_iff.1 h2).1; omega
    · exact Nat.le_refl _

theorem above_last {h : List (Msg Nat)} {r : Msg Nat} {t n : Nat} (ht : h.length ≤ t) (hn : n ≤ r.val) :
    Above (h ++ [r]) t n := by
  refine ⟨by rw [lastVal_append]; exact hn, fun t' q ht' hq => ?_⟩
  rcases getElem?_snoc hq with h1 | ⟨h1, rfl⟩
  · have := (List.getElem?_eq_some_iff.1 h1).1; omega
  · exact hn

theorem place_last {h : List (Msg γ)} {known t : Nat} (H : place h known t = .last) :
    known ≤ t ∧ t + 1 = h.length := by
  unfold place at H
  split at H
  · next hh =>
    refine ⟨hh.1, ?_⟩
    split at H
    · next hn => rw [List.getElem?_eq_none_iff] at hn; omega
    · split at H <;> cases H
  · cases H

theorem place_middle {h : List (Msg γ)} {known t : Nat} (H : place h known t = .middle) :
    known ≤ t ∧ ∃ n, h[t + 1]? = some n ∧ n.rmw = false := by
  unfold place at H
  split at H
  · next hh =>
    refine ⟨hh.1, ?_⟩
    split at H
    · cases H
    · next n hn =>
      split at H
      · cases H
      · next hf => exact ⟨n, hn, by simpa using hf⟩
  · cases H

theorem getLast_of_place {h : List γ} {t : Nat} {r : γ} (ht : t + 1 = h.length) (hr : h[t]? = some r) :
    h.getLast? = some r := by
  rw [List.getLast?_eq_getElem?, ← ht]; exact hr

/-! ## the invariant -/

def Fresh (m : WMem α) (i : Nat) : Prop := ∃ r, m.st i = [r] ∧ r.val = .NONE

def Past (m : WMem α) (V : View) (i : Nat) : Prop :=
  (∃ r, (m.st i).getLast? = some r ∧ r.val ≠ .NONE) ∧
  ∀ (t : Nat) r, V.st i ≤ t → (m.st i)[t]? = some r → r.val ≠ .NONE

/-- What call-local knowledge means. -/
structure KInv (D : Mode) (m : WMem α) (V : View) (K : Know) : Prop where
  u_r : ∀ i, K.U i → K.R i
  gr_r : ∀ i, K.Gr i → K.R i
  r_rk : ∀ i, K.R i → i < K.rk
  fresh : ∀ i, K.U i → Fresh m i
  u_sees : ∀ i, K.U i → ∀ k : Nat, m.acc[k]? = some (.write i) ∨ m.acc[k]? = some (.read i) → V.seen k = true
  w_val : ∀ i, K.U i → K.W i → (m.val i).isSome
  l_last : ∀ i, K.L i → ∃ r, (m.st i).getLast? = some r ∧ r.val = .RESERVED
  l_known : ∀ i, K.L i → (m.st i).length ≤ V.st i + 1
  l_write : ∀ i, K.L i → ∀ k : Nat, m.acc[k]? = some (.write i) → V.seen k = true
  l_read : ∀ i, K.L i → ¬ D.deref i → ∀ k : Nat, m.acc[k]? = some (.read i) → V.seen k = true
  l_val : ∀ i, K.L i → (m.val i).isSome
  a : ∀ i, K.A i → m.usable V i = true ∧ Above m.cap V.cap (i + 1)
  v : ∀ i, K.V i → Past m V i
  p : ∀ i, K.P i → Past m V i ∧ (m.val i).isSome ∧ (D.deref i → ∀ k : Nat, m.acc[k]? = some (.write i) → V.seen k = true)
  c : ∀ x, K.C = some x → ∃ t r, m.cap[t]? = some r ∧ r.val = x ∧ t ≤ V.cap ∧
    ∀ k : Nat, r.view.seen k = true → V.seen k = true
  g : K.G → (∃ r, m.cap.getLast? = some r ∧ K.Gr r.val ∧ r.val < m.alloc) ∧ K.N ≤ m.alloc ∧
    (∀ k : Nat, m.acc[k]? = some .grow → V.seen k = true) ∧ m.cap.length ≤ V.cap + 1 ∧
    ∀ i, i < m.alloc → m.usable V i = true
  rk : Above m.res V.res K.rk
  wn : Above m.written V.written K.wn
  lo : K.lo ≤ lastVal m.res

/-- Invariant of the memory. -/
structure GInv (D : Mode) (m : WMem α) (K : Cid → Know) : Prop where
  res_ne : m.res ≠ []
  res_rmw : ∀ (t : Nat) r, m.res[t + 1]? = some r → r.rmw = true
  res_mono : Mono m.res
  written_ne : m.written ≠ []
  written_rmw : ∀ (t : Nat) r, m.written[t + 1]? = some r → r.rmw = true
  written_mono : Mono m.written
  written_msg : ∀ (t : Nat) r, m.written[t]? = some r → ∀ i, i < r.val →
    Past m r.view i ∧ m.usable r.view i = true ∧ Above m.cap r.view.cap (i + 1)
  cap_ne : m.cap ≠ []
  cap_mono : Mono m.cap
  cap_msg : ∀ (t : Nat) r, m.cap[t]? = some r → ∀ i, i < r.val → m.usable r.view i = true
  cap_old : ∀ (t : Nat) r, m.cap[t]? = some r → t + 1 < m.cap.length → ∃ c, (K c).Gr r.val
  cap_last : (∀ c, ¬ (K c).G) → ∀ r, m.cap.getLast? = some r → r.val = m.alloc ∧
    ∀ k : Nat, m.acc[k]? = some .grow → r.view.seen k = true
  good : m.pol.good m.alloc m.maxCap
  st_ne : ∀ i, m.st i ≠ []
  st_step : ∀ (i t : Nat) a b, (m.st i)[t]? = some a → (m.st i)[t + 1]? = some b →
    (a.val = .NONE ∧ b.val = .SOME) ∨ (a.val = .SOME ∧ b.val = .RESERVED ∧ b.rmw = true) ∨
      (a.val = .RESERVED ∧ b.val = .SOME)
  st_last : ∀ i r, (m.st i).getLast? = some r → r.val = .SOME →
    (∀ k : Nat, m.acc[k]? = some (.write i) → r.view.seen k = true) ∧
    (¬ D.deref i → ∀ k : Nat, m.acc[k]? = some (.read i) → r.view.seen k = true)
  st_val : ∀ i r, (m.st i).getLast? = some r → r.val ≠ .NONE → (m.val i).isSome
  st_D : ∀ (i t : Nat) r, D.deref i → (m.st i)[t]? = some r → r.val = .SOME → ∀ k : Nat, m.acc[k]? = some (.write i) → r.view.seen k = true
  st_N : D.nolock → ∀ (i t : Nat) r, (m.st i)[t]? = some r → r.val ≠ .RESERVED
  lim : ∀ i, lastVal m.res ≤ i → Fresh m i ∧ ∀ k : Nat, m.acc[k]? ≠ some (.write i) ∧ m.acc[k]? ≠ some (.read i)
  disjR : ∀ c d i, (K c).R i → (K d).R i → c = d
  disjL : ∀ c d i, (K c).L i → (K d).L i → c = d
  disjG : ∀ c d, (K c).G → (K d).G → c = d

theorem fresh_not_past {m : WMem α} {V : View} {i : Nat} (h : Fresh m i) : ¬ Past m V i := by
  rintro ⟨⟨r, hr, hn⟩, -⟩
  obtain ⟨q, hq, hv⟩ := h
  rw [hq] at hr
  simp only [List.getLast?_singleton, Option.some.injEq] at hr
  subst hr; exact hn hv

theorem fresh_not_last {m : WMem α} {i : Nat} (h : Fresh m i) {r : Msg CState} (hr : (m.st i).getLast? = some r) :
    r.val = .NONE := by
  obtain ⟨q, hq, hv⟩ := h
  rw [hq] at hr
  simp only [List.getLast?_singleton, Option.some.injEq] at hr
  subst hr; exact hv

theorem usable_mono {m : WMem α} {V V' : View} {i : Nat} (h : m.usable V i = true) (hl : V.Le V') :
    m.usable V' i = true := by
  unfold WMem.usable at h ⊢
  rw [Bool.and_eq_true] at h ⊢
  refine ⟨h.1, ?_⟩
  have h2 := h.2
  split at h2
  · exact hl.seen _ h2
  · rfl

theorem Past.mono {m : WMem α} {V V' : View} {i : Nat} (h : Past m V i) (hl : V.Le V') : Past m V' i :=
  ⟨h.1, fun t r ht hr => h.2 t r (Nat.le_trans (hl.st i) ht) hr⟩

theorem KInv.mono {D : Mode} {m : WMem α} {V V' : View} {K : Know} (h : KInv D m V K) (hl : V.Le V') :
    KInv D m V' K where
  u_r := h.u_r
  gr_r := h.gr_r
  r_rk := h.r_rk
  fresh := h.fresh
  u_sees i hi k hk := hl.seen k (h.u_sees i hi k hk)
  w_val := h.w_val
  l_last := h.l_last
  l_known i hi := by have := h.l_known i hi; have := hl.st i; omega
  l_write i hi k hk := hl.seen k (h.l_write i hi k hk)
  l_read i hi hd k hk := hl.seen k (h.l_read i hi hd k hk)
  l_val := h.l_val
  a i hi := ⟨usable_mono (h.a i hi).1 hl, (h.a i hi).2.mono hl.cap⟩
  v i hi := (h.v i hi).mono hl
  p i hi := ⟨(h.p i hi).1.mono hl, (h.p i hi).2.1, fun hd k hk => hl.seen k ((h.p i hi).2.2 hd k hk)⟩
  c x hx := by
    obtain ⟨t, r, h1, h2, h3, h4⟩ := h.c x hx
    exact ⟨t, r, h1, h2, Nat.le_trans h3 hl.cap, fun k hk => hl.seen k (h4 k hk)⟩
  g hg := by
    obtain ⟨h1, h2, h3, h4, h5⟩ := h.g hg
    exact ⟨h1, h2, fun k hk => hl.seen k (h3 k hk), by have := hl.cap; omega, fun i hi => usable_mono (h5 i hi) hl⟩
  rk := h.rk.mono hl.res
  wn := h.wn.mono hl.written
  lo := h.lo

/-! ## what others do -/

/-- The memory develops from `m` to `m'`, touching only the positions in `T`, and the storage only if `g`. -/
structure Ext (D : Mode) (m m' : WMem α) (T : Nat → Prop) (g : Prop) : Prop where
  res : m'.res = m.res ∨ ∃ r, m'.res = m.res ++ [r] ∧ lastVal m.res ≤ r.val
  written : m'.written = m.written ∨ ∃ r, m'.written = m.written ++ [r] ∧ lastVal m.written ≤ r.val
  cap : m'.cap = m.cap ∨ ∃ r, m'.cap = m.cap ++ [r] ∧ lastVal m.cap ≤ r.val ∧ g
  st : ∀ i, m'.st i = m.st i ∨ ∃ r, m'.st i = m.st i ++ [r] ∧ r.val ≠ .NONE ∧ T i
  val : ∀ i, (m.val i).isSome → (m'.val i).isSome
  alloc : m.alloc ≤ m'.alloc
  allocAt : ∀ i, i < m.alloc → m'.allocAt i = m.allocAt i
  alloc_same : ¬ g → m'.alloc = m.alloc
  acc : ∃ l, m'.acc = m.acc ++ l
  grow : ∀ k : Nat, m.acc.length ≤ k → m'.acc[k]? = some .grow → g
  write : ∀ i k, m.acc.length ≤ k → m'.acc[k]? = some (.write i) → T i ∧ (D.deref i → Fresh m i)
  read : ∀ i k, m.acc.length ≤ k → m'.acc[k]? = some (.read i) → T i ∨ (D.deref i ∧ ¬ Fresh m i)

variable {D : Mode} {m m' : WMem α} {T : Nat → Prop} {g : Prop} {V : View} {K : Know}

theorem Ext.acc_old (h : Ext D m m' T g) {k : Nat} (hk : k < m.acc.length) : m'.acc[k]? = m.acc[k]? := by
  obtain ⟨l, hl⟩ := h.acc
  rw [hl, List.getElem?_append_left hk]

theorem Ext.usable (h : Ext D m m' T g) {V : View} {i : Nat} (hu : m.usable V i = true) : m'.usable V i = true := by
  unfold WMem.usable at hu ⊢
  rw [Bool.and_eq_true, decide_eq_true_eq] at hu ⊢
  rw [h.allocAt i hu.1]
  exact ⟨Nat.lt_of_lt_of_le hu.1 h.alloc, hu.2⟩

theorem Ext.above_cap (h : Ext D m m' T g) {t n : Nat} (ha : Above m.cap t n) : Above m'.cap t n := by
  rcases h.cap with hc | ⟨r, hc, hr, -⟩
  · rw [hc]; exact ha
  · rw [hc]; exact ha.append hr

theorem Ext.above_res (h : Ext D m m' T g) {t n : Nat} (ha : Above m.res t n) : Above m'.res t n := by
  rcases h.res with hc | ⟨r, hc, hr⟩
  · rw [hc]; exact ha
  · rw [hc]; exact ha.append hr

theorem Ext.above_written (h : Ext D m m' T g) {t n : Nat} (ha : Above m.written t n) : Above m'.written t n := by
  rcases h.written with hc | ⟨r, hc, hr⟩
  · rw [hc]; exact ha
  · rw [hc]; exact ha.append hr

theorem Ext.last_res (h : Ext D m m' T g) : lastVal m.res ≤ lastVal m'.res := by
  rcases h.res with hc | ⟨r, hc, hr⟩
  · rw [hc]; exact Nat.le_refl _
  · rw [hc, lastVal_append]; exact hr

theorem Ext.past (h : Ext D m m' T g) {V : View} {i : Nat} (hp : Past m V i) : Past m' V i := by
  rcases h.st i with hc | ⟨r, hc, hr, -⟩
  · unfold Past; rw [hc]; exact hp
  · unfold Past
    rw [hc]
    refine ⟨⟨r, by simp, hr⟩, fun t q ht hq => ?_⟩
    rcases getElem?_snoc hq with h1 | ⟨-, rfl⟩
    · exact hp.2 t q ht h1
    · exact hr

theorem KInv.frame (he : Ext D m m' T g) (hT : ∀ i, T i → ¬ K.U i ∧ ¬ K.L i) (hg : g → ¬ K.G)
    (h : KInv D m V K) : KInv D m' V K where
  u_r := h.u_r
  gr_r := h.gr_r
  r_rk := h.r_rk
  fresh i hi := by
    rcases he.st i with hc | ⟨r, -, -, ht⟩
    · unfold Fresh; rw [hc]; exact h.fresh i hi
    · exact absurd hi (hT i ht).1
  u_sees i hi k hk := by
    rcases Nat.lt_or_ge k m.acc.length with hlt | hge
    · rw [he.acc_old hlt] at hk; exact h.u_sees i hi k hk
    · rcases hk with hk | hk
      · exact absurd hi (hT i (he.write i k hge hk).1).1
      · rcases he.read i k hge hk with ht | ⟨-, hf⟩
        · exact absurd hi (hT i ht).1
        · exact absurd (h.fresh i hi) hf
  w_val i hi hw := he.val i (h.w_val i hi hw)
  l_last i hi := by
    rcases he.st i with hc | ⟨r, -, -, ht⟩
    · rw [hc]; exact h.l_last i hi
    · exact absurd hi (hT i ht).2
  l_known i hi := by
    rcases he.st i with hc | ⟨r, -, -, ht⟩
    · rw [hc]; exact h.l_known i hi
    · exact absurd hi (hT i ht).2
  l_write i hi k hk := by
    rcases Nat.lt_or_ge k m.acc.length with hlt | hge
    · rw [he.acc_old hlt] at hk; exact h.l_write i hi k hk
    · exact absurd hi (hT i (he.write i k hge hk).1).2
  l_read i hi hd k hk := by
    rcases Nat.lt_or_ge k m.acc.length with hlt | hge
    · rw [he.acc_old hlt] at hk; exact h.l_read i hi hd k hk
    · rcases he.read i k hge hk with ht | ⟨hd', -⟩
      · exact absurd hi (hT i ht).2
      · exact absurd hd' hd
  l_val i hi := he.val i (h.l_val i hi)
  a i hi := ⟨he.usable (h.a i hi).1, he.above_cap (h.a i hi).2⟩
  v i hi := he.past (h.v i hi)
  p i hi := by
    obtain ⟨h1, h2, h3⟩ := h.p i hi
    refine ⟨he.past h1, he.val i h2, fun hd k hk => ?_⟩
    rcases Nat.lt_or_ge k m.acc.length with hlt | hge
    · rw [he.acc_old hlt] at hk; exact h3 hd k hk
    · exact absurd h1 (fresh_not_past ((he.write i k hge hk).2 hd))
  c x hx := by
    obtain ⟨t, r, h1, h2⟩ := h.c x hx
    refine ⟨t, r, ?_, h2⟩
    rcases he.cap with hc | ⟨q, hc, -⟩
    · rw [hc]; exact h1
    · rw [hc]; exact getElem?_snoc_old h1
  g hG := by
    have hng : ¬ g := fun h' => hg h' hG
    obtain ⟨h1, h2, h3, h4, h5⟩ := h.g hG
    have hc : m'.cap = m.cap := by
      rcases he.cap with hc | ⟨q, hc, -, h'⟩
      · exact hc
      · exact absurd h' hng
    rw [hc, he.alloc_same hng]
    refine ⟨h1, h2, fun k hk => ?_, h4, fun i hi => he.usable (h5 i hi)⟩
    rcases Nat.lt_or_ge k m.acc.length with hlt | hge
    · rw [he.acc_old hlt] at hk; exact h3 k hk
    · exact absurd (he.grow k hge hk) hng
  rk := he.above_res h.rk
  wn := he.above_written h.wn
  lo := Nat.le_trans h.lo he.last_res

end Verif.Weak
