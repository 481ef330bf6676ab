import Verif.Weak.Inv

/-!
# Every action whose needs are met keeps the invariant

Helper file (no property statements).
-/

namespace Verif.Weak

variable {α β γ : Type} {D : Mode} {m m' : WMem α} {V : Cid → View} {K : Cid → Know} {c : Cid} {K1 : Know}

/-- Result of an action of `c`. -/
structure Good (D : Mode) (m : WMem α) (V : Cid → View) (K : Cid → Know) (c : Cid) (a : Act α) (V' : View) (m' : WMem α)
    (b : a.Resp) : Prop where
  can : Can D m.maxCap (K c) a b
  le : (V c).Le V'
  max : m'.maxCap = m.maxCap
  g : GInv D m' (upd K c (next (K c) a b))
  k : KInv D m' V' (next (K c) a b)
  others : ∀ d, d ≠ c → KInv D m' (V d) (K d)
  keeps : Keeps D m.maxCap (K c) a b → m' = m

theorem GInv.congr (h : GInv D m K) (hGr : K1.Gr = (K c).Gr) (hG : K1.G = (K c).G) (hR : K1.R = (K c).R)
    (hL : K1.L = (K c).L) : GInv D m (upd K c K1) := by
  have e1 : ∀ d, (upd K c K1 d).Gr = (K d).Gr := by
    intro d; rw [upd_apply]; split
    · next h => rw [h, hGr]
    · rfl
  have e2 : ∀ d, (upd K c K1 d).G = (K d).G := by
    intro d; rw [upd_apply]; split
    · next h => rw [h, hG]
    · rfl
  have e3 : ∀ d, (upd K c K1 d).R = (K d).R := by
    intro d; rw [upd_apply]; split
    · next h => rw [h, hR]
    · rfl
  have e4 : ∀ d, (upd K c K1 d).L = (K d).L := by
    intro d; rw [upd_apply]; split
    · next h => rw [h, hL]
    · rfl
  exact { h with
    cap_old := by intro t r hr ht; simp only [e1]; exact h.cap_old t r hr ht
    cap_last := by simp only [e2]; exact h.cap_last
    disjR := by simp only [e3]; exact h.disjR
    disjL := by simp only [e4]; exact h.disjL
    disjG := by simp only [e2]; exact h.disjG }

/-! ## loads -/

theorem good_resLoad {o : MOrd} (hG : GInv D m K) (hK : ∀ d, KInv D m (V d) (K d)) {t : Nat} {V' : View}
    {b : Nat} (he : exec (.resLoad o : Act α) t (V c) m = .ok V' m' b) : Good D m V K c (.resLoad o) V' m' b := by
  simp only [exec] at he
  split at he
  · next r hr =>
    split at he
    · next ht =>
      injection he with h1 h2 h3
      subst h1 h2 h3
      have hle : (V c).Le (((V c).read o r).atRes t) := (View.read_le _ _ _).trans (View.atRes_le _ _)
      have hk := (hK c).mono hle
      refine ⟨(hK c).rk.2 t r ht hr, hle, rfl, hG.congr rfl rfl rfl rfl, ?_, fun d _ => hK d, fun h => h.elim⟩
      show KInv D m _ { K c with rk := max (K c).rk r.val }
      refine { hk with
        r_rk := fun i hi => Nat.lt_of_lt_of_le (hk.r_rk i hi) (Nat.le_max_left _ _)
        rk := ?_ }
      rcases Nat.le_total (K c).rk r.val with hc | hc
      · rw [Nat.max_eq_right hc]; exact (hG.res_mono.above hr).mono (Nat.le_max_right _ _)
      · rw [Nat.max_eq_left hc]; exact hk.rk
    · cases he
  · cases he

theorem good_writtenLoad {o : MOrd} (hG : GInv D m K) (hK : ∀ d, KInv D m (V d) (K d)) {t : Nat} {V' : View}
    {b : Nat} (he : exec (.writtenLoad o : Act α) t (V c) m = .ok V' m' b) :
    Good D m V K c (.writtenLoad o) V' m' b := by
  simp only [exec] at he
  split at he
  · next r hr =>
    split at he
    · next ht =>
      injection he with h1 h2 h3
      subst h1 h2 h3
      have hle : (V c).Le (((V c).read o r).atWritten t) := (View.read_le _ _ _).trans (View.atWritten_le _ _)
      have hk := (hK c).mono hle
      have hacq : o.acq = true → r.view.Le (((V c).read o r).atWritten t) := fun ho =>
        (View.read_acq _ r ho).trans (View.atWritten_le _ _)
      refine ⟨(hK c).wn.2 t r ht hr, hle, rfl, hG.congr rfl rfl rfl rfl, ?_, fun d _ => hK d, fun h => h.elim⟩
      show KInv D m _ { K c with
        V := fun i => (K c).V i ∨ (o.acq = true ∧ i < r.val)
        A := fun i => (K c).A i ∨ (o.acq = true ∧ i < r.val)
        wn := max (K c).wn r.val }
      refine { hk with
        v := ?_
        a := ?_
        wn := ?_ }
      · rintro i (hi | ⟨ho, hi⟩)
        · exact ⟨usable_mono ((hK c).a i hi).1 hle, ((hK c).a i hi).2.mono hle.cap⟩
        · obtain ⟨-, h2, h3⟩ := hG.written_msg t r hr i hi
          exact ⟨usable_mono h2 (hacq ho), h3.mono (hacq ho).cap⟩
      · rintro i (hi | ⟨ho, hi⟩)
        · exact hk.v i hi
        · exact (hG.written_msg t r hr i hi).1.mono (hacq ho)
      · rcases Nat.le_total (K c).wn r.val with hc | hc
        · rw [Nat.max_eq_right hc]; exact (hG.written_mono.above hr).mono (Nat.le_max_right _ _)
        · rw [Nat.max_eq_left hc]; exact hk.wn
    · cases he
  · cases he

theorem good_capLoad {o : MOrd} (hG : GInv D m K) (hK : ∀ d, KInv D m (V d) (K d)) {t : Nat} {V' : View}
    {b : Nat} (he : exec (.capLoad o : Act α) t (V c) m = .ok V' m' b) : Good D m V K c (.capLoad o) V' m' b := by
  simp only [exec] at he
  split at he
  · next r hr =>
    split at he
    · next ht =>
      injection he with h1 h2 h3
      subst h1 h2 h3
      have hle : (V c).Le (((V c).read o r).atCap t) := (View.read_le _ _ _).trans (View.atCap_le _ _)
      have hk := (hK c).mono hle
      have hacq : o.acq = true → r.view.Le (((V c).read o r).atCap t) := fun ho =>
        (View.read_acq _ r ho).trans (View.atCap_le _ _)
      refine ⟨fun i hi => ((hK c).a i hi).2.2 t r ht hr, hle, rfl, hG.congr rfl rfl rfl rfl, ?_, fun d _ => hK d,
        fun _ => rfl⟩
      show KInv D m _ { K c with
        A := fun i => (K c).A i ∨ (o.acq = true ∧ i < r.val)
        C := if o.acq = true then some r.val else (K c).C }
      refine { hk with
        a := ?_
        c := ?_ }
      · rintro i (hi | ⟨ho, hi⟩)
        · exact hk.a i hi
        · exact ⟨usable_mono (hG.cap_msg t r hr i hi) (hacq ho),
            ((hG.cap_mono.above hr).le hi).mono (Nat.le_max_right _ _)⟩
      · intro x hx
        dsimp only at hx
        split at hx
        · next ho =>
          injection hx with hx; subst hx
          exact ⟨t, r, hr, rfl, Nat.le_max_right _ _, (hacq ho).seen⟩
        · exact hk.c x hx
    · cases he
  · cases he

theorem good_maxCapLoad (hG : GInv D m K) (hK : ∀ d, KInv D m (V d) (K d)) {t : Nat} {V' : View}
    {b : Nat} (he : exec (.maxCapLoad : Act α) t (V c) m = .ok V' m' b) : Good D m V K c .maxCapLoad V' m' b := by
  simp only [exec] at he
  injection he with h1 h2 h3
  subst h1 h2 h3
  exact ⟨rfl, .refl _, rfl, hG.congr rfl rfl rfl rfl, hK c, fun d _ => hK d, fun h => h.elim⟩

/-- Once a byte is not `NONE` it never is again. -/
theorem GInv.not_none (hG : GInv D m K) {i t : Nat} {r : Msg CState} (hr : (m.st i)[t]? = some r) (hn : r.val ≠ .NONE) :
    ∀ (n t' : Nat) r', t' = t + n → (m.st i)[t']? = some r' → r'.val ≠ .NONE := by
  intro n
  induction n with
  | zero =>
    intro t' r' ht hr'
    rw [ht, Nat.add_zero, hr] at hr'
    injection hr' with hr'; subst hr'; exact hn
  | succ n ih =>
    intro t' r' ht hr'
    have hlt := (List.getElem?_eq_some_iff.1 hr').1
    obtain ⟨q, hq⟩ : ∃ q, (m.st i)[t + n]? = some q := ⟨_, List.getElem?_eq_getElem (by omega)⟩
    have := ih (t + n) q rfl hq
    have ht2 : t' = t + n + 1 := by omega
    subst ht2
    rcases hG.st_step i (t + n) q r' hq hr' with ⟨h, -⟩ | ⟨-, h, -⟩ | ⟨-, h⟩
    · exact absurd h this
    · rw [h]; decide
    · rw [h]; decide

theorem GInv.past_at (hG : GInv D m K) {i t : Nat} {r : Msg CState} (hr : (m.st i)[t]? = some r) (hn : r.val ≠ .NONE)
    {W : View} (hW : t ≤ W.st i) : Past m W i := by
  have key := hG.not_none hr hn
  have hlt := (List.getElem?_eq_some_iff.1 hr).1
  constructor
  · obtain ⟨q, hq⟩ : ∃ q, (m.st i)[(m.st i).length - 1]? = some q := ⟨_, List.getElem?_eq_getElem (by omega)⟩
    refine ⟨q, by rw [List.getLast?_eq_getElem?]; exact hq, ?_⟩
    exact key ((m.st i).length - 1 - t) _ q (by omega) hq
  · intro t' r' ht hr'
    exact key (t' - t) t' r' (by omega) hr'

theorem GInv.val_at (hG : GInv D m K) {i t : Nat} {r : Msg CState} (hr : (m.st i)[t]? = some r) (hn : r.val ≠ .NONE) :
    (m.val i).isSome := by
  obtain ⟨q, hq, hqn⟩ := (hG.past_at hr hn (W := ⟨0, 0, 0, fun _ => t, fun _ => false⟩) (Nat.le_refl _)).1
  exact hG.st_val i q hq hqn

theorem good_stLoad {i : Nat} {o : MOrd} (hG : GInv D m K) (hK : ∀ d, KInv D m (V d) (K d)) {t : Nat} {V' : View}
    {b : CState} (he : exec (.stLoad i o : Act α) t (V c) m = .ok V' m' b) :
    Good D m V K c (.stLoad i o) V' m' b := by
  simp only [exec] at he
  split at he
  · split at he
    · next r hr =>
      split at he
      · next ht =>
        injection he with h1 h2 h3
        subst h1 h2 h3
        have hle : (V c).Le (((V c).read o r).atSt i t) := (View.read_le _ _ _).trans (View.atSt_le _ _ _)
        have hk := (hK c).mono hle
        refine ⟨⟨fun hv => ((hK c).v i hv).2 t r ht hr, fun h => hG.st_N h i t r hr⟩, hle, rfl, hG.congr rfl rfl rfl rfl, ?_, fun d _ => hK d,
          fun h => h.elim⟩
        show KInv D m _ { K c with
          V := fun j => (K c).V j ∨ (j = i ∧ r.val ≠ .NONE)
          P := fun j => (K c).P j ∨ (j = i ∧ r.val = .SOME ∧ o.acq = true) }
        refine { hk with
          v := ?_
          p := ?_ }
        · rintro j (hj | ⟨rfl, hn⟩)
          · exact hk.v j hj
          · exact hG.past_at hr hn (View.atSt_st _ _ _)
        · rintro j (hj | ⟨rfl, hs, ho⟩)
          · exact hk.p j hj
          · have hn : r.val ≠ .NONE := by rw [hs]; decide
            exact ⟨hG.past_at hr hn (View.atSt_st _ _ _), hG.val_at hr hn, fun hd k hk =>
              ((View.read_acq _ r ho).trans (View.atSt_le _ _ _)).seen k (hG.st_D j t r hd hr hs k hk)⟩
      · cases he
    · cases he
  · cases he

/-! ## read-modify-writes of the counters -/

theorem lastVal_of {h : List (Msg Nat)} {t : Nat} {r : Msg Nat} (ht : t + 1 = h.length) (hr : h[t]? = some r) :
    lastVal h = r.val := by
  unfold lastVal; rw [getLast_of_place ht hr]

theorem upd_cases {K : Cid → Know} {c : Cid} {K1 : Know} (d : Cid) (P : Know → Prop) (h1 : d = c → P K1)
    (h2 : d ≠ c → P (K d)) : P (upd K c K1 d) := by
  rw [upd_apply]; split
  · next h => exact h1 h
  · next h => exact h2 h

theorem good_resFetchAdd {n : Nat} {o : MOrd} (hG : GInv D m K) (hK : ∀ d, KInv D m (V d) (K d)) {t : Nat} {V' : View}
    {b : Nat} (he : exec (.resFetchAdd n o : Act α) t (V c) m = .ok V' m' b) :
    Good D m V K c (.resFetchAdd n o) V' m' b := by
  simp only [exec] at he
  split at he
  · next r hp hr =>
    injection he with h1 h2 h3
    obtain ⟨hpl, hlen⟩ := place_last hp
    have hlast := lastVal_of hlen hr
    generalize hr' : (⟨r.val + n, ((((V c).read o r).atRes (t + 1)).sent o).join r.view, true⟩ : Msg Nat) = r' at h2
    have hv' : r'.val = r.val + n := by rw [← hr']
    have hrm : r'.rmw = true := by rw [← hr']
    subst h1 h2 h3
    have hle : (V c).Le (((V c).read o r).atRes (t + 1)) := (View.read_le _ _ _).trans (View.atRes_le _ _)
    have hmono : lastVal m.res ≤ r'.val := by omega
    have hext : Ext D m { m with res := m.res ++ [r'] } (fun _ => False) False := {
      res := .inr ⟨r', rfl, hmono⟩
      written := .inl rfl
      cap := .inl rfl
      st := fun _ => .inl rfl
      val := fun _ h => h
      alloc := Nat.le_refl _
      allocAt := fun _ _ => rfl
      alloc_same := fun _ => rfl
      acc := ⟨[], by simp⟩
      grow := fun k hk h => by rw [List.getElem?_eq_none_iff.2 hk] at h; cases h
      write := fun i k hk h => by rw [List.getElem?_eq_none_iff.2 hk] at h; cases h
      read := fun i k hk h => by rw [List.getElem?_eq_none_iff.2 hk] at h; cases h }
    have hfr : ∀ d, KInv D { m with res := m.res ++ [r'] } (V d) (K d) := fun d =>
      (hK d).frame hext (fun _ h => h.elim) (fun h => h.elim)
    have hk := (hfr c).mono hle
    have hR : ∀ d i, (K d).R i → i < r.val := fun d i hi => by
      have h1 := (hK d).r_rk i hi
      have h2 := (hK d).rk.1
      omega
    refine ⟨⟨?_, ?_, fun i hi => hR c i hi⟩, hle, rfl, ?_, ?_, fun d _ => hfr d, fun h => h.elim⟩
    · have := (hK c).lo; omega
    · have := (hK c).rk.1; omega
    · have e1 : ∀ d, (upd K c (next (K c) (.resFetchAdd n o : Act α) r.val) d).Gr = (K d).Gr := fun d =>
        upd_cases d (fun x => x.Gr = (K d).Gr) (fun h => by subst h; rfl) (fun _ => rfl)
      have e2 : ∀ d, (upd K c (next (K c) (.resFetchAdd n o : Act α) r.val) d).G = (K d).G := fun d =>
        upd_cases d (fun x => x.G = (K d).G) (fun h => by subst h; rfl) (fun _ => rfl)
      have e4 : ∀ d, (upd K c (next (K c) (.resFetchAdd n o : Act α) r.val) d).L = (K d).L := fun d =>
        upd_cases d (fun x => x.L = (K d).L) (fun h => by subst h; rfl) (fun _ => rfl)
      have e3 : ∀ d i, (upd K c (next (K c) (.resFetchAdd n o : Act α) r.val) d).R i →
          (K d).R i ∨ (d = c ∧ r.val ≤ i) := by
        intro d i
        refine upd_cases d (fun x => x.R i → (K d).R i ∨ (d = c ∧ r.val ≤ i)) (fun h => ?_) (fun _ h => .inl h)
        subst h
        rintro (h | h)
        · exact .inl h
        · exact .inr ⟨rfl, h.1⟩
      exact { hG with
        res_ne := by simp
        res_rmw := by
          intro s q hq
          rcases getElem?_snoc hq with h | ⟨-, rfl⟩
          · exact hG.res_rmw s q h
          · exact hrm
        res_mono := hG.res_mono.append hmono
        cap_old := by intro s q hq hs; simp only [e1]; exact hG.cap_old s q hq hs
        cap_last := by simp only [e2]; exact hG.cap_last
        lim := by
          intro i hi
          have hi : lastVal (m.res ++ [r']) ≤ i := hi
          rw [lastVal_append] at hi
          exact hG.lim i (by omega)
        disjR := by
          intro d d' i h h'
          rcases e3 d i h with h1 | ⟨h0, h1⟩ <;> rcases e3 d' i h' with h2 | ⟨h3, h2⟩
          · exact hG.disjR d d' i h1 h2
          · have := hR d i h1; omega
          · have := hR d' i h2; omega
          · rw [h0, h3]
        disjL := by simp only [e4]; exact hG.disjL
        disjG := by simp only [e2]; exact hG.disjG }
    · show KInv D { m with res := m.res ++ [r'] } _ { K c with
        U := fun i => (K c).U i ∨ (r.val ≤ i ∧ i < r.val + n)
        W := fun i => (K c).W i ∧ ¬ (r.val ≤ i ∧ i < r.val + n)
        R := fun i => (K c).R i ∨ (r.val ≤ i ∧ i < r.val + n)
        rk := max (K c).rk (r.val + n) }
      refine { hk with
        u_r := ?_
        gr_r := fun i hi => .inl (hk.gr_r i hi)
        r_rk := ?_
        fresh := ?_
        u_sees := ?_
        w_val := ?_
        rk := ?_ }
      · rintro i (h | h)
        · exact .inl (hk.u_r i h)
        · exact .inr h
      · rintro i (h | h)
        · have := hk.r_rk i h; exact Nat.lt_of_lt_of_le this (Nat.le_max_left _ _)
        · exact Nat.lt_of_lt_of_le h.2 (Nat.le_max_right _ _)
      · rintro i (h | h)
        · exact hk.fresh i h
        · exact (hG.lim i (by omega)).1
      · rintro i (h | h) k hk'
        · exact hk.u_sees i h k hk'
        · have := (hG.lim i (by omega)).2 k
          rcases hk' with hk' | hk'
          · exact absurd hk' this.1
          · exact absurd hk' this.2
      · rintro i (h | h) ⟨hw, hnot⟩
        · exact hk.w_val i h hw
        · exact absurd h hnot
      · have h1 : (K c).rk ≤ r.val + n := by have := (hK c).rk.1; omega
        refine above_last ?_ (show max (K c).rk (r.val + n) ≤ r'.val by omega)
        show m.res.length ≤ max _ (t + 1)
        omega
  · cases he
  · cases he

theorem good_writtenFetchMax {n : Nat} {o : MOrd} (hG : GInv D m K) (hK : ∀ d, KInv D m (V d) (K d))
    (ho : o.rel = true) (hn : ∀ i, i < n → (K c).V i ∧ (K c).A i) {t : Nat} {V' : View}
    {b : Unit} (he : exec (.writtenFetchMax n o : Act α) t (V c) m = .ok V' m' b) :
    Good D m V K c (.writtenFetchMax n o) V' m' b := by
  simp only [exec] at he
  split at he
  · next r hp hr =>
    injection he with h1 h2 h3
    obtain ⟨hpl, hlen⟩ := place_last hp
    have hlast := lastVal_of hlen hr
    generalize hr' : (⟨max r.val n, ((((V c).read o r).atWritten (t + 1)).sent o).join r.view, true⟩ : Msg Nat) = r' at h2
    have hv' : r'.val = max r.val n := by rw [← hr']
    have hrm : r'.rmw = true := by rw [← hr']
    have hvw1 : r.view.Le r'.view := by rw [← hr']; exact View.le_join_right _ _
    have hle : (V c).Le (((V c).read o r).atWritten (t + 1)) := (View.read_le _ _ _).trans (View.atWritten_le _ _)
    have hvw2 : (V c).Le r'.view := by
      rw [← hr']
      refine hle.trans ?_
      unfold View.sent
      rw [if_pos ho]
      exact View.le_join_left _ _
    subst h1 h2
    have hmono : lastVal m.written ≤ r'.val := by rw [hv', hlast]; exact Nat.le_max_left _ _
    have hext : Ext D m { m with written := m.written ++ [r'] } (fun _ => False) False := {
      res := .inl rfl
      written := .inr ⟨r', rfl, hmono⟩
      cap := .inl rfl
      st := fun _ => .inl rfl
      val := fun _ h => h
      alloc := Nat.le_refl _
      allocAt := fun _ _ => rfl
      alloc_same := fun _ => rfl
      acc := ⟨[], by simp⟩
      grow := fun k hk h => by rw [List.getElem?_eq_none_iff.2 hk] at h; cases h
      write := fun i k hk h => by rw [List.getElem?_eq_none_iff.2 hk] at h; cases h
      read := fun i k hk h => by rw [List.getElem?_eq_none_iff.2 hk] at h; cases h }
    have hfr : ∀ d, KInv D { m with written := m.written ++ [r'] } (V d) (K d) := fun d =>
      (hK d).frame hext (fun _ h => h.elim) (fun h => h.elim)
    have hk := (hfr c).mono hle
    refine ⟨trivial, hle, rfl, ?_, ?_, fun d _ => hfr d, fun h => h.elim⟩
    · refine GInv.congr ?_ rfl rfl rfl rfl
      exact { hG with
        written_ne := by simp
        written_rmw := by
          intro s q hq
          rcases getElem?_snoc hq with h | ⟨-, rfl⟩
          · exact hG.written_rmw s q h
          · exact hrm
        written_mono := hG.written_mono.append hmono
        written_msg := by
          intro s q hq i hi
          rcases getElem?_snoc hq with h | ⟨-, rfl⟩
          · exact hG.written_msg s q h i hi
          · rcases Nat.lt_or_ge i r.val with hlt | hge
            · obtain ⟨h1, h2, h3⟩ := hG.written_msg t r hr i hlt
              exact ⟨h1.mono hvw1, usable_mono h2 hvw1, h3.mono hvw1.cap⟩
            · have hin : i < n := by rw [hv'] at hi; omega
              obtain ⟨h1, h2⟩ := hn i hin
              exact ⟨((hK c).v i h1).mono hvw2, usable_mono ((hK c).a i h2).1 hvw2, ((hK c).a i h2).2.mono hvw2.cap⟩ }
    · show KInv D { m with written := m.written ++ [r'] } _ { K c with wn := max (K c).wn n }
      refine { hk with wn := ?_ }
      refine above_last ?_ ?_
      · show m.written.length ≤ max _ (t + 1)
        omega
      · have h1 : (K c).wn ≤ r.val := by have := (hK c).wn.1; omega
        show max (K c).wn n ≤ r'.val
        rw [hv']; omega
  · cases he
  · cases he

/-! ## growing the storage -/

theorem usable_seen {m : WMem α} {W W' : View} {i : Nat} (h : m.usable W i = true)
    (hs : ∀ k, W.seen k = true → W'.seen k = true) : m.usable W' i = true := by
  unfold WMem.usable at h ⊢
  rw [Bool.and_eq_true] at h ⊢
  refine ⟨h.1, ?_⟩
  have h2 := h.2
  split at h2
  · exact hs _ h2
  · rfl

/-- A call that owns the position at the capacity it has acquired, and has not grown yet, knows the newest capacity, and
nobody else is growing. -/
theorem may_grow (hG : GInv D m K) (hK : ∀ d, KInv D m (V d) (K d)) (hn : ¬ (K c).G) {x : Nat} (hx : (K c).C = some x)
    (hu : (K c).U x) (hgr : ¬ (K c).Gr x) :
    (∀ d, ¬ (K d).G) ∧ x = m.alloc ∧ (∀ k : Nat, m.acc[k]? = some .grow → (V c).seen k = true) ∧
    m.cap.length ≤ (V c).cap + 1 ∧ (∀ i, i < m.alloc → m.usable (V c) i = true) ∧
    ∃ r, m.cap.getLast? = some r ∧ r.val = x := by
  obtain ⟨t, r, hr, hv, ht, hs⟩ := (hK c).c x hx
  have hlt := (List.getElem?_eq_some_iff.1 hr).1
  have own : ∀ d, (K d).R x → d = c := fun d hd => hG.disjR d c x hd ((hK c).u_r x hu)
  have hlen : t + 1 = m.cap.length := by
    rcases Nat.lt_or_ge (t + 1) m.cap.length with h | h
    · exfalso
      obtain ⟨d, hd⟩ := hG.cap_old t r hr h
      rw [hv] at hd
      have := own d ((hK d).gr_r x hd)
      subst this; exact hgr hd
    · omega
  have hlast := getLast_of_place hlen hr
  have hno : ∀ d, ¬ (K d).G := by
    intro d hd
    obtain ⟨⟨q, hq, hg, -⟩, -⟩ := (hK d).g hd
    rw [hlast] at hq; injection hq with hq; subst hq
    rw [hv] at hg
    have := own d ((hK d).gr_r x hg)
    subst this; exact hn hd
  obtain ⟨ha, hk⟩ := hG.cap_last hno r hlast
  refine ⟨hno, by rw [← hv, ha], fun k h => hs k (hk k h), by omega, fun i hi => ?_, r, hlast, hv⟩
  exact usable_seen (hG.cap_msg t r hr i (by omega)) hs

theorem ok_growAlloc {n : Nat} (hG : GInv D m K) (hK : ∀ d, KInv D m (V d) (K d))
    (hp : Pre D m.maxCap (K c) (.growAlloc n : Act α)) {t : Nat} {x : Bad} : exec (.growAlloc n : Act α) t (V c) m ≠ .bad x := by
  obtain ⟨hn, -, y, hx, hu, hgr, -⟩ := hp
  obtain ⟨-, -, h3, -⟩ := may_grow hG hK hn hx hu hgr
  simp only [exec]
  rw [if_pos]
  · intro h; cases h
  · rw [View.sees_iff]
    intro k a hk ha
    simp only [beq_iff_eq] at ha
    subst ha; exact h3 k hk

theorem good_growAlloc {n : Nat} (hG : GInv D m K) (hK : ∀ d, KInv D m (V d) (K d))
    (hp : Pre D m.maxCap (K c) (.growAlloc n : Act α)) {t : Nat} {V' : View} {b : Unit}
    (he : exec (.growAlloc n : Act α) t (V c) m = .ok V' m' b) : Good D m V K c (.growAlloc n) V' m' b := by
  obtain ⟨hn, hmx, x, hx, hu, hgr, hxn⟩ := hp
  obtain ⟨hno, hxa, h3, hcl, hus, r, hlast, hrv⟩ := may_grow hG hK hn hx hu hgr
  simp only [exec] at he
  split at he
  · injection he with h1 h2 h3'
    obtain ⟨ha1, ha2, ha3⟩ := m.pol.grow_ok hG.good (show m.alloc < n by omega) hmx
    generalize hm' : ({ m with
      alloc := m.pol.grow m.alloc n
      allocAt := fun i => if m.alloc ≤ i ∧ i < m.pol.grow m.alloc n then some m.acc.length else m.allocAt i
      acc := m.acc ++ [.grow] } : WMem α) = m1 at h2
    have e_alloc : m1.alloc = m.pol.grow m.alloc n := by rw [← hm']
    have e_at : m1.allocAt = fun i => if m.alloc ≤ i ∧ i < m.pol.grow m.alloc n then some m.acc.length else m.allocAt i := by
      rw [← hm']
    have e_acc : m1.acc = m.acc ++ [.grow] := by rw [← hm']
    have e_res : m1.res = m.res := by rw [← hm']
    have e_wr : m1.written = m.written := by rw [← hm']
    have e_cap : m1.cap = m.cap := by rw [← hm']
    have e_st : m1.st = m.st := by rw [← hm']
    have e_val : m1.val = m.val := by rw [← hm']
    have e_max : m1.maxCap = m.maxCap := by rw [← hm']
    have e_pol : m1.pol = m.pol := by rw [← hm']
    clear hm'
    subst h1 h2
    have hnew : ∀ (k : Nat) a, m.acc.length ≤ k → m1.acc[k]? = some a → a = .grow ∧ k = m.acc.length := by
      intro k a hk ha
      rw [e_acc] at ha
      rcases getElem?_snoc ha with h | ⟨h, rfl⟩
      · have := (List.getElem?_eq_some_iff.1 h).1; omega
      · exact ⟨rfl, h⟩
    have hext : Ext D m m1 (fun _ => False) True := {
      res := .inl e_res
      written := .inl e_wr
      cap := .inl e_cap
      st := fun i => .inl (by rw [e_st])
      val := fun i h => by rw [e_val]; exact h
      alloc := by rw [e_alloc]; omega
      allocAt := fun i hi => by
        rw [e_at]
        have : ¬ (m.alloc ≤ i ∧ i < m.pol.grow m.alloc n) := by omega
        simp [this]
      alloc_same := fun h => absurd trivial h
      acc := ⟨_, e_acc⟩
      grow := fun _ _ _ => trivial
      write := fun i k hk h => by cases (hnew k _ hk h).1
      read := fun i k hk h => by cases (hnew k _ hk h).1 }
    have hoth : ∀ d, KInv D m1 (V d) (K d) := fun d => (hK d).frame hext (fun _ h => h.elim) (fun _ => hno d)
    have hk := (hoth c).mono (View.note_le (V c) m.acc.length)
    have hold : ∀ (k : Nat) a, a ≠ Access.grow → (m1.acc[k]? = some a ↔ m.acc[k]? = some a) := by
      intro k a hne
      rcases Nat.lt_or_ge k m.acc.length with hlt | hge
      · rw [hext.acc_old hlt]
      · constructor
        · intro h; exact absurd (hnew k a hge h).1 hne
        · intro h; have := (List.getElem?_eq_some_iff.1 h).1; omega
    refine ⟨trivial, View.note_le _ _, e_max, ?_, ?_, fun d _ => hoth d, fun h => h.elim⟩
    · have e1 : ∀ d i, (K d).Gr i → (upd K c (next (K c) (.growAlloc n : Act α) ()) d).Gr i := fun d i =>
        upd_cases d (fun x => (K d).Gr i → x.Gr i) (fun h => by subst h; exact fun h => .inl h) (fun _ h => h)
      have e2 : (upd K c (next (K c) (.growAlloc n : Act α) ()) c).G := by rw [upd_same]; trivial
      have e2' : ∀ d, (upd K c (next (K c) (.growAlloc n : Act α) ()) d).G → d = c := fun d =>
        upd_cases d (fun x => x.G → d = c) (fun h _ => h) (fun _ h => absurd h (hno d))
      have e3 : ∀ d, (upd K c (next (K c) (.growAlloc n : Act α) ()) d).R = (K d).R := fun d =>
        upd_cases d (fun x => x.R = (K d).R) (fun h => by subst h; rfl) (fun _ => rfl)
      have e4 : ∀ d, (upd K c (next (K c) (.growAlloc n : Act α) ()) d).L = (K d).L := fun d =>
        upd_cases d (fun x => x.L = (K d).L) (fun h => by subst h; rfl) (fun _ => rfl)
      exact {
        res_ne := by rw [e_res]; exact hG.res_ne
        res_rmw := by rw [e_res]; exact hG.res_rmw
        res_mono := by rw [e_res]; exact hG.res_mono
        written_ne := by rw [e_wr]; exact hG.written_ne
        written_rmw := by rw [e_wr]; exact hG.written_rmw
        written_mono := by rw [e_wr]; exact hG.written_mono
        written_msg := by
          rw [e_wr]
          intro s q hq i hi
          obtain ⟨h1, h2, h3⟩ := hG.written_msg s q hq i hi
          exact ⟨hext.past h1, hext.usable h2, hext.above_cap h3⟩
        cap_ne := by rw [e_cap]; exact hG.cap_ne
        cap_mono := by rw [e_cap]; exact hG.cap_mono
        cap_msg := by
          rw [e_cap]
          intro s q hq i hi
          exact hext.usable (hG.cap_msg s q hq i hi)
        cap_old := by
          rw [e_cap]
          intro s q hq hs
          obtain ⟨d, hd⟩ := hG.cap_old s q hq hs
          exact ⟨d, e1 d _ hd⟩
        cap_last := fun h => absurd e2 (h c)
        good := by rw [e_alloc, e_max, e_pol]; exact ha3
        st_ne := by rw [e_st]; exact hG.st_ne
        st_step := by rw [e_st]; exact hG.st_step
        st_last := by
          rw [e_st]
          intro i q hq hs
          obtain ⟨h1, h2⟩ := hG.st_last i q hq hs
          exact ⟨fun k hk => h1 k ((hold k _ (by simp)).1 hk), fun hd k hk => h2 hd k ((hold k _ (by simp)).1 hk)⟩
        st_val := by rw [e_st, e_val]; exact hG.st_val
        st_D := by
          rw [e_st]
          intro hd i s q hq hs k hk
          exact hG.st_D hd i s q hq hs k ((hold k _ (by simp)).1 hk)
        st_N := by rw [e_st]; exact hG.st_N
        lim := by
          rw [e_res]
          intro i hi
          obtain ⟨h1, h2⟩ := hG.lim i hi
          refine ⟨by unfold Fresh; rw [e_st]; exact h1, fun k => ⟨fun h => (h2 k).1 ((hold k _ (by simp)).1 h),
            fun h => (h2 k).2 ((hold k _ (by simp)).1 h)⟩⟩
        disjR := by simp only [e3]; exact hG.disjR
        disjL := by simp only [e4]; exact hG.disjL
        disjG := fun d d' h h' => by rw [e2' d h, e2' d' h'] }
    · show KInv D m1 _ { K c with
        G := True
        Gr := fun i => (K c).Gr i ∨ (K c).C = some i
        N := n }
      refine { hk with
        gr_r := ?_
        g := ?_ }
      · rintro i (h | h)
        · exact hk.gr_r i h
        · rw [hx] at h; injection h with h; subst h; exact hk.u_r x hu
      · intro _
        rw [e_cap]
        refine ⟨⟨r, hlast, .inr (by rw [hrv]; exact hx), by rw [e_alloc]; omega⟩,
          (show n ≤ m1.alloc by rw [e_alloc]; exact ha1), ?_, hcl, ?_⟩
        · intro k hk'
          rcases Nat.lt_or_ge k m.acc.length with hlt | hge
          · rw [hext.acc_old hlt] at hk'
            exact (View.note_le _ _).seen k (h3 k hk')
          · rw [(hnew k _ hge hk').2]; exact View.note_seen _ _
        · intro i hi
          rcases Nat.lt_or_ge i m.alloc with hlt | hge
          · exact usable_mono (hext.usable (hus i hlt)) (View.note_le _ _)
          · rw [e_alloc] at hi
            unfold WMem.usable
            rw [e_alloc, e_at]
            simp [hge, hi, View.note]
  · cases he

theorem ok_growPublish {o : MOrd} (hK : ∀ d, KInv D m (V d) (K d)) (hg : (K c).G) {t : Nat} {x : Bad} :
    exec (.growPublish o : Act α) t (V c) m ≠ .bad x := by
  obtain ⟨-, -, h3, h4, -⟩ := (hK c).g hg
  simp only [exec]
  rw [if_pos]
  · split
    · intro h; cases h
    · next hp =>
      obtain ⟨h1, q, h2, -⟩ := place_middle hp
      have := (List.getElem?_eq_some_iff.1 h2).1
      omega
    · intro h; cases h
  · rw [View.sees_iff]
    intro k a hk ha
    simp only [beq_iff_eq] at ha
    subst ha; exact h3 k hk

theorem good_growPublish {o : MOrd} (hG : GInv D m K) (hK : ∀ d, KInv D m (V d) (K d)) (ho : o.rel = true)
    (hg : (K c).G) {t : Nat} {V' : View} {b : Unit}
    (he : exec (.growPublish o : Act α) t (V c) m = .ok V' m' b) : Good D m V K c (.growPublish o) V' m' b := by
  obtain ⟨⟨q, hq, hgr, hqa⟩, hN, h3, h4, h5⟩ := (hK c).g hg
  simp only [exec] at he
  split at he
  · split at he
    · next hp =>
      injection he with h1 h2
      obtain ⟨hpl, hlen⟩ := place_last hp
      generalize hr' : (⟨m.alloc, (((V c).atCap (t + 1)).sent o), false⟩ : Msg Nat) = r' at h2
      have hv' : r'.val = m.alloc := by rw [← hr']
      have hvw : (V c).Le r'.view := by
        rw [← hr']; unfold View.sent; rw [if_pos ho]; exact View.atCap_le _ _
      subst h1 h2
      have hle : (V c).Le ((V c).atCap (t + 1)) := View.atCap_le _ _
      have hlv : lastVal m.cap = q.val := by unfold lastVal; rw [hq]
      have hmono : lastVal m.cap ≤ r'.val := by omega
      have hext : Ext D m { m with cap := m.cap ++ [r'] } (fun _ => False) True := {
        res := .inl rfl
        written := .inl rfl
        cap := .inr ⟨r', rfl, hmono, trivial⟩
        st := fun _ => .inl rfl
        val := fun _ h => h
        alloc := Nat.le_refl _
        allocAt := fun _ _ => rfl
        alloc_same := fun _ => rfl
        acc := ⟨[], by simp⟩
        grow := fun k hk h => by rw [List.getElem?_eq_none_iff.2 hk] at h; cases h
        write := fun i k hk h => by rw [List.getElem?_eq_none_iff.2 hk] at h; cases h
        read := fun i k hk h => by rw [List.getElem?_eq_none_iff.2 hk] at h; cases h }
      have hno : ∀ d, d ≠ c → ¬ (K d).G := fun d hd h => hd (hG.disjG d c h hg)
      refine ⟨trivial, hle, rfl, ?_, ?_, fun d hd => (hK d).frame hext (fun _ h => h.elim) (fun _ => hno d hd),
        fun h => h.elim⟩
      · have e1 : ∀ d, (upd K c (next (K c) (.growPublish o : Act α) ()) d).Gr = (K d).Gr := fun d =>
          upd_cases d (fun x => x.Gr = (K d).Gr) (fun h => by subst h; rfl) (fun _ => rfl)
        have e2 : ∀ d, ¬ (upd K c (next (K c) (.growPublish o : Act α) ()) d).G := fun d =>
          upd_cases d (fun x => ¬ x.G) (fun _ h => h) (fun h => hno d h)
        have e3 : ∀ d, (upd K c (next (K c) (.growPublish o : Act α) ()) d).R = (K d).R := fun d =>
          upd_cases d (fun x => x.R = (K d).R) (fun h => by subst h; rfl) (fun _ => rfl)
        have e4 : ∀ d, (upd K c (next (K c) (.growPublish o : Act α) ()) d).L = (K d).L := fun d =>
          upd_cases d (fun x => x.L = (K d).L) (fun h => by subst h; rfl) (fun _ => rfl)
        exact { hG with
          written_msg := by
            intro s p hs i hi
            obtain ⟨h1, h2, h3⟩ := hG.written_msg s p hs i hi
            exact ⟨h1, h2, hext.above_cap h3⟩
          cap_ne := by simp
          cap_mono := hG.cap_mono.append hmono
          cap_msg := by
            intro s p hs i hi
            rcases getElem?_snoc hs with h | ⟨-, rfl⟩
            · exact hG.cap_msg s p h i hi
            · exact usable_mono (h5 i (by omega)) hvw
          cap_old := by
            intro s p hs hlt
            simp only [e1]
            rcases getElem?_snoc hs with h | ⟨h, rfl⟩
            · rcases Nat.lt_or_ge (s + 1) m.cap.length with hl | hl
              · exact hG.cap_old s p h hl
              · have := (List.getElem?_eq_some_iff.1 h).1
                rw [getLast_of_place (by omega) h] at hq
                injection hq with hq; subst hq
                exact ⟨c, hgr⟩
            · have : (m.cap ++ [p]).length = m.cap.length + 1 := by simp
              have hlt : s + 1 < (m.cap ++ [p]).length := hlt
              omega
          cap_last := by
            intro _ p hp
            have hp : (m.cap ++ [r']).getLast? = some p := hp
            rw [List.getLast?_append, List.getLast?_singleton] at hp
            simp only [Option.some_or, Option.some.injEq] at hp
            subst hp
            exact ⟨hv', fun k hk => hvw.seen k (h3 k hk)⟩
          disjR := by simp only [e3]; exact hG.disjR
          disjL := by simp only [e4]; exact hG.disjL
          disjG := fun d _ h _ => absurd h (e2 d) }
      · have hk0 : KInv D m (V c) { K c with G := False } := { hK c with g := fun h => h.elim }
        have hk := (hk0.frame hext (fun _ h => h.elim) (fun _ h => h)).mono hle
        show KInv D { m with cap := m.cap ++ [r'] } _ { K c with
          G := False
          A := fun i => (K c).A i ∨ i < (K c).N }
        refine { hk with a := ?_ }
        rintro i (h | h)
        · exact hk.a i h
        · refine ⟨usable_mono (h5 i (by omega)) hle, above_last ?_ (by omega)⟩
          show m.cap.length ≤ max _ (t + 1)
          omega
    · cases he
    · cases he
  · cases he

/-! ## state bytes -/

theorem upd_st {h : List (Msg CState)} {i j : Nat} : upd m.st i h j = if j = i then h else m.st j := by rw [upd_apply]

/-- Appending a message to the state byte of `i`. -/
theorem ext_st {i : Nat} {r' : Msg CState} (hn : r'.val ≠ .NONE) :
    Ext D m { m with st := upd m.st i (m.st i ++ [r']) } (· = i) False where
  res := .inl rfl
  written := .inl rfl
  cap := .inl rfl
  st j := by
    show upd m.st i _ j = _ ∨ ∃ r, upd m.st i _ j = _ ∧ _
    rw [upd_apply]; split
    · next h => subst h; exact .inr ⟨r', rfl, hn, rfl⟩
    · exact .inl rfl
  val _ h := h
  alloc := Nat.le_refl _
  allocAt _ _ := rfl
  alloc_same _ := rfl
  acc := ⟨[], by simp⟩
  grow k hk h := by rw [List.getElem?_eq_none_iff.2 hk] at h; cases h
  write i k hk h := by rw [List.getElem?_eq_none_iff.2 hk] at h; cases h
  read i k hk h := by rw [List.getElem?_eq_none_iff.2 hk] at h; cases h

/-- Invariant of the memory after appending a message to the state byte of `i`. -/
theorem GInv.st_append {i : Nat} {r r' : Msg CState} (h : GInv D m K) (hn : r'.val ≠ .NONE)
    (hr : (m.st i).getLast? = some r)
    (hstep : (r.val = .NONE ∧ r'.val = .SOME) ∨ (r.val = .SOME ∧ r'.val = .RESERVED ∧ r'.rmw = true) ∨
      (r.val = .RESERVED ∧ r'.val = .SOME))
    (hN : D.nolock → r'.val ≠ .RESERVED) (hlim : i < lastVal m.res) (hval : (m.val i).isSome)
    (hw : r'.val = .SOME → ∀ k : Nat, m.acc[k]? = some (.write i) → r'.view.seen k = true)
    (hrd : r'.val = .SOME → ¬ D.deref i → ∀ k : Nat, m.acc[k]? = some (.read i) → r'.view.seen k = true) :
    GInv D { m with st := upd m.st i (m.st i ++ [r']) } K := by
  have hext : Ext D m { m with st := upd m.st i (m.st i ++ [r']) } (· = i) False := ext_st hn
  exact { h with
    written_msg := fun t q hq j hj => by
      obtain ⟨h1, h2, h3⟩ := h.written_msg t q hq j hj
      exact ⟨hext.past h1, h2, h3⟩
    st_ne := fun j => by
      show upd m.st i _ j ≠ []
      rw [upd_apply]; split
      · simp
      · exact h.st_ne j
    st_step := fun j t a b ha hb => by
      have ha : (upd m.st i (m.st i ++ [r']) j)[t]? = some a := ha
      have hb : (upd m.st i (m.st i ++ [r']) j)[t + 1]? = some b := hb
      rw [upd_apply] at ha hb
      split at ha
      · next hj =>
        subst hj
        simp only [if_true] at hb
        rcases getElem?_snoc hb with hb' | ⟨hb', eb⟩
        · rcases getElem?_snoc ha with ha' | ⟨ha', ea⟩
          · exact h.st_step j t a b ha' hb'
          · have := (List.getElem?_eq_some_iff.1 hb').1; omega
        · rcases getElem?_snoc ha with ha' | ⟨ha', ea⟩
          · rw [getLast_of_place hb' ha'] at hr
            injection hr with hr; subst hr; rw [eb]; exact hstep
          · omega
      · next hj =>
        rw [if_neg hj] at hb
        exact h.st_step j t a b ha hb
    st_last := fun j q hq hs => by
      have hq : (upd m.st i (m.st i ++ [r']) j).getLast? = some q := hq
      rw [upd_apply] at hq
      split at hq
      · next hj =>
        subst hj
        simp only [List.getLast?_append, List.getLast?_singleton, Option.some_or, Option.some.injEq] at hq
        subst hq
        exact ⟨hw hs, hrd hs⟩
      · exact h.st_last j q hq hs
    st_val := fun j q hq hs => by
      have hq : (upd m.st i (m.st i ++ [r']) j).getLast? = some q := hq
      rw [upd_apply] at hq
      split at hq
      · next hj => subst hj; exact hval
      · exact h.st_val j q hq hs
    st_D := fun j t q hd hq hs => by
      have hq : (upd m.st i (m.st i ++ [r']) j)[t]? = some q := hq
      rw [upd_apply] at hq
      split at hq
      · next hj =>
        subst hj
        rcases getElem?_snoc hq with hq | ⟨hq, rfl⟩
        · exact h.st_D j t q hd hq hs
        · exact hw hs
      · exact h.st_D j t q hd hq hs
    st_N := fun hd j t q hq => by
      have hq : (upd m.st i (m.st i ++ [r']) j)[t]? = some q := hq
      rw [upd_apply] at hq
      split at hq
      · next hj =>
        subst hj
        rcases getElem?_snoc hq with hq | ⟨hq, rfl⟩
        · exact h.st_N hd j t q hq
        · exact hN hd
      · exact h.st_N hd j t q hq
    lim := fun j hj => by
      have hji : j ≠ i := by
        have hj : lastVal m.res ≤ j := hj
        omega
      refine ⟨?_, (h.lim j hj).2⟩
      unfold Fresh
      show ∃ q, upd m.st i _ j = [q] ∧ _
      rw [upd_apply, if_neg hji]
      exact (h.lim j hj).1 }

theorem GInv.upd_L (h : GInv D m K) (hGr : K1.Gr = (K c).Gr) (hG : K1.G = (K c).G) (hR : K1.R = (K c).R)
    (hL : ∀ i, K1.L i → ∀ d, d ≠ c → ¬ (K d).L i) : GInv D m (upd K c K1) := by
  have e1 : ∀ d, (upd K c K1 d).Gr = (K d).Gr := fun d =>
    upd_cases d (fun x => x.Gr = (K d).Gr) (fun h => by subst h; exact hGr) (fun _ => rfl)
  have e2 : ∀ d, (upd K c K1 d).G = (K d).G := fun d =>
    upd_cases d (fun x => x.G = (K d).G) (fun h => by subst h; exact hG) (fun _ => rfl)
  have e3 : ∀ d, (upd K c K1 d).R = (K d).R := fun d =>
    upd_cases d (fun x => x.R = (K d).R) (fun h => by subst h; exact hR) (fun _ => rfl)
  exact { h with
    cap_old := by intro t r hr ht; simp only [e1]; exact h.cap_old t r hr ht
    cap_last := by simp only [e2]; exact h.cap_last
    disjR := by simp only [e3]; exact h.disjR
    disjL := by
      intro d d' i h1 h2
      rw [upd_apply] at h1 h2
      split at h1
      · next hd =>
        split at h2
        · next hd' => rw [hd, hd']
        · next hd' => exact absurd h2 (hL i h1 d' hd')
      · next hd =>
        split at h2
        · next hd' => exact absurd h1 (hL i h2 d hd)
        · exact h.disjL d d' i h1 h2
    disjG := by simp only [e2]; exact h.disjG }

theorem lt_last_res (hG : GInv D m K) {i : Nat} {r : Msg CState} (hr : (m.st i).getLast? = some r) (hn : r.val ≠ .NONE) :
    i < lastVal m.res := by
  rcases Nat.lt_or_ge i (lastVal m.res) with h | h
  · exact h
  · exact absurd (fresh_not_last (hG.lim i h).1 hr) hn

theorem ok_stCas {i : Nat} {e n : CState} {ok fail : MOrd} (hG : GInv D m K) (hK : ∀ d, KInv D m (V d) (K d))
    (hp : Pre D m.maxCap (K c) (.stCas i e n ok fail : Act α)) {t : Nat} {x : Bad} :
    exec (.stCas i e n ok fail : Act α) t (V c) m ≠ .bad x := by
  obtain ⟨ha, rfl, rfl, ho, hnl⟩ := hp
  simp only [exec, ((hK c).a i ha).1, if_true]
  split
  · next r hr =>
    split
    · next hv =>
      split
      · intro h; cases h
      · next hpl =>
        obtain ⟨-, q, hq, hf⟩ := place_middle hpl
        rcases hG.st_step i t r q hr hq with ⟨h, -⟩ | ⟨-, -, h⟩ | ⟨h, -⟩
        · rw [hv] at h; cases h
        · rw [hf] at h; cases h
        · rw [hv] at h; cases h
      · intro h; cases h
    · split <;> (intro h; cases h)
  · intro h; cases h

theorem good_stCas {i : Nat} {e n : CState} {ok fail : MOrd} (hG : GInv D m K) (hK : ∀ d, KInv D m (V d) (K d))
    (hp : Pre D m.maxCap (K c) (.stCas i e n ok fail : Act α)) {t : Nat} {V' : View} {b : Option CState}
    (he : exec (.stCas i e n ok fail : Act α) t (V c) m = .ok V' m' b) :
    Good D m V K c (.stCas i e n ok fail) V' m' b := by
  obtain ⟨ha, rfl, rfl, ho, hnl⟩ := hp
  simp only [exec, ((hK c).a i ha).1, if_true] at he
  split at he
  · next r hr =>
    split at he
    · next hv =>
      split at he
      · next hpl =>
        injection he with h1 h2 h3
        obtain ⟨hkn, hlen⟩ := place_last hpl
        generalize hr' : (⟨CState.RESERVED, ((((V c).read ok r).atSt i (t + 1)).sent ok).join r.view, true⟩ : Msg CState) = r' at h2
        have hv' : r'.val = .RESERVED := by rw [← hr']
        have hrmw : r'.rmw = true := by rw [← hr']
        clear hr'
        subst h1 h2 h3
        have hlast := getLast_of_place hlen hr
        have hle : (V c).Le (((V c).read ok r).atSt i (t + 1)) := (View.read_le _ _ _).trans (View.atSt_le _ _ _)
        have hacq : r.view.Le (((V c).read ok r).atSt i (t + 1)) := (View.read_acq _ r ho).trans (View.atSt_le _ _ _)
        have hn : r'.val ≠ .NONE := by rw [hv']; intro h; cases h
        have hext : Ext D m { m with st := upd m.st i (m.st i ++ [r']) } (· = i) False := ext_st hn
        have hU : ∀ d, ¬ (K d).U i := fun d h => by
          have := fresh_not_last ((hK d).fresh i h) hlast
          rw [hv] at this; cases this
        have hL : ∀ d, ¬ (K d).L i := fun d h => by
          obtain ⟨q, hq, hqv⟩ := (hK d).l_last i h
          rw [hlast] at hq; injection hq with hq; subst hq
          rw [hv] at hqv; cases hqv
        have hoth : ∀ d, KInv D { m with st := upd m.st i (m.st i ++ [r']) } (V d) (K d) := fun d =>
          (hK d).frame hext (fun j hj => by subst hj; exact ⟨hU d, hL d⟩) (fun h => h.elim)
        have hk := (hoth c).mono hle
        have hval : (m.val i).isSome := hG.st_val i r hlast (by rw [hv]; intro h; cases h)
        have hpast : Past { m with st := upd m.st i (m.st i ++ [r']) } (((V c).read ok r).atSt i (t + 1)) i := by
          refine ⟨⟨r', by simp [upd_same], hn⟩, fun s q hs hq => ?_⟩
          have hs : (((V c).read ok r).atSt i (t + 1)).st i ≤ s := hs
          have := View.atSt_st ((V c).read ok r) i (t + 1)
          have hq : (upd m.st i (m.st i ++ [r']) i)[s]? = some q := hq
          rw [upd_same] at hq
          rcases getElem?_snoc hq with h | ⟨-, rfl⟩
          · have := (List.getElem?_eq_some_iff.1 h).1; omega
          · exact hn
        refine ⟨⟨hL c, hU c⟩, hle, rfl, ?_, ?_, fun d _ => hoth d, fun h => by cases h.1⟩
        · refine (hG.st_append hn hlast (.inr (.inl ⟨hv, hv', hrmw⟩)) (fun h => absurd h hnl)
            (lt_last_res hG hlast (by rw [hv]; intro h; cases h)) hval (fun h => by rw [hv'] at h; cases h)
            (fun h => by rw [hv'] at h; cases h)).upd_L rfl rfl rfl ?_
          rintro j (h | h) d hd h'
          · exact hd (hG.disjL d c j h' h)
          · subst h; exact hL d h'
        · show KInv D { m with st := upd m.st i (m.st i ++ [r']) } _ { K c with
            L := fun j => (K c).L j ∨ j = i
            V := fun j => (K c).V j ∨ j = i
            P := fun j => (K c).P j ∨ j = i }
          refine { hk with
            l_last := ?_
            l_known := ?_
            l_write := ?_
            l_read := ?_
            l_val := ?_
            v := ?_
            p := ?_ }
          · rintro j (h | h)
            · exact hk.l_last j h
            · subst h; exact ⟨r', by simp [upd_same], hv'⟩
          · rintro j (h | h)
            · exact hk.l_known j h
            · subst h
              have := View.atSt_st ((V c).read ok r) j (t + 1)
              simp only [upd_same, List.length_append, List.length_singleton]
              omega
          · rintro j (h | h) k hk'
            · exact hk.l_write j h k hk'
            · subst h; exact hacq.seen k ((hG.st_last j r hlast hv).1 k hk')
          · rintro j (h | h) hd k hk'
            · exact hk.l_read j h hd k hk'
            · subst h; exact hacq.seen k ((hG.st_last j r hlast hv).2 hd k hk')
          · rintro j (h | h)
            · exact hk.l_val j h
            · subst h; exact hval
          · rintro j (h | h)
            · exact hk.v j h
            · subst h; exact hpast
          · rintro j (h | h)
            · exact hk.p j h
            · subst h; exact ⟨hpast, hval, fun _ k hk' => hacq.seen k ((hG.st_last j r hlast hv).1 k hk')⟩
      · cases he
      · cases he
    · next hv =>
      split at he
      · next ht =>
        injection he with h1 h2 h3
        subst h1 h2 h3
        have hle : (V c).Le (((V c).read fail r).atSt i t) := (View.read_le _ _ _).trans (View.atSt_le _ _ _)
        have hk := (hK c).mono hle
        refine ⟨⟨hv, fun h => ((hK c).v i h).2 t r ht hr⟩, hle, rfl, hG.congr rfl rfl rfl rfl, ?_, fun d _ => hK d,
          fun _ => rfl⟩
        show KInv D m _ { K c with V := fun j => (K c).V j ∨ (j = i ∧ r.val ≠ .NONE) }
        refine { hk with v := ?_ }
        rintro j (h | ⟨rfl, h⟩)
        · exact hk.v j h
        · exact hG.past_at hr h (View.atSt_st _ _ _)
      · cases he
  · cases he

theorem ok_stStore {i : Nat} {s : CState} {o : MOrd} (hK : ∀ d, KInv D m (V d) (K d))
    (hp : Pre D m.maxCap (K c) (.stStore i s o : Act α)) {t : Nat} {x : Bad} :
    exec (.stStore i s o : Act α) t (V c) m ≠ .bad x := by
  obtain ⟨ha, rfl, ho, hs⟩ := hp
  simp only [exec, ((hK c).a i ha).1, if_true]
  split
  · intro h; cases h
  · next hpl =>
    obtain ⟨hkn, q, hq, -⟩ := place_middle hpl
    have hlt := (List.getElem?_eq_some_iff.1 hq).1
    rcases hs with hl | ⟨hu, -⟩
    · have := (hK c).l_known i hl; omega
    · obtain ⟨r, hr, -⟩ := (hK c).fresh i hu
      rw [hr] at hlt
      simp at hlt
  · intro h; cases h

theorem good_stStore {i : Nat} {s : CState} {o : MOrd} (hG : GInv D m K) (hK : ∀ d, KInv D m (V d) (K d))
    (hp : Pre D m.maxCap (K c) (.stStore i s o : Act α)) {t : Nat} {V' : View} {b : Unit}
    (he : exec (.stStore i s o : Act α) t (V c) m = .ok V' m' b) : Good D m V K c (.stStore i s o) V' m' b := by
  obtain ⟨ha, rfl, ho, hs⟩ := hp
  simp only [exec, ((hK c).a i ha).1, if_true] at he
  split at he
  · next hpl =>
    injection he with h1 h2
    obtain ⟨hkn, hlen⟩ := place_last hpl
    generalize hr' : (⟨CState.SOME, (((V c).atSt i (t + 1)).sent o), false⟩ : Msg CState) = r' at h2
    have hv' : r'.val = .SOME := by rw [← hr']
    have hvw : (V c).Le r'.view := by
      rw [← hr']; unfold View.sent; rw [if_pos ho]; exact View.atSt_le _ _ _
    clear hr'
    subst h1 h2
    have hn : r'.val ≠ .NONE := by rw [hv']; intro h; cases h
    have hle : (V c).Le ((V c).atSt i (t + 1)) := View.atSt_le _ _ _
    have hext : Ext D m { m with st := upd m.st i (m.st i ++ [r']) } (· = i) False := ext_st hn
    -- the newest message
    obtain ⟨r, hlast, hstep⟩ : ∃ r, (m.st i).getLast? = some r ∧ (r.val = .NONE ∨ r.val = .RESERVED) := by
      rcases hs with hl | ⟨hu, -⟩
      · obtain ⟨r, h1, h2⟩ := (hK c).l_last i hl
        exact ⟨r, h1, .inr h2⟩
      · obtain ⟨r, h1, h2⟩ := (hK c).fresh i hu
        exact ⟨r, by rw [h1]; rfl, .inl h2⟩
    have hstep' : (r.val = .NONE ∧ r'.val = .SOME) ∨ (r.val = .SOME ∧ r'.val = .RESERVED ∧ r'.rmw = true) ∨
        (r.val = .RESERVED ∧ r'.val = .SOME) := by
      rcases hstep with h | h
      · exact .inl ⟨h, hv'⟩
      · exact .inr (.inr ⟨h, hv'⟩)
    have hU : ∀ d, d ≠ c → ¬ (K d).U i := fun d hd h => by
      rcases hs with hl | ⟨hu, -⟩
      · obtain ⟨q, h1, h2⟩ := (hK c).l_last i hl
        have := fresh_not_last ((hK d).fresh i h) h1
        rw [h2] at this; cases this
      · exact hd (hG.disjR d c i ((hK d).u_r i h) ((hK c).u_r i hu))
    have hL : ∀ d, d ≠ c → ¬ (K d).L i := fun d hd h => by
      rcases hs with hl | ⟨hu, -⟩
      · exact hd (hG.disjL d c i h hl)
      · obtain ⟨q, h1, h2⟩ := (hK d).l_last i h
        have := fresh_not_last ((hK c).fresh i hu) h1
        rw [h2] at this; cases this
    have hval : (m.val i).isSome := by
      rcases hs with hl | ⟨hu, hw⟩
      · exact (hK c).l_val i hl
      · exact (hK c).w_val i hu hw
    have hlim : i < lastVal m.res := by
      rcases hs with hl | ⟨hu, hw⟩
      · obtain ⟨q, h1, h2⟩ := (hK c).l_last i hl
        exact lt_last_res hG h1 (by rw [h2]; intro h; cases h)
      · have := (hK c).r_rk i ((hK c).u_r i hu)
        have := (hK c).rk.1
        omega
    have hws : ∀ k : Nat, m.acc[k]? = some (.write i) → (V c).seen k = true := by
      intro k hk
      rcases hs with hl | ⟨hu, -⟩
      · exact (hK c).l_write i hl k hk
      · exact (hK c).u_sees i hu k (.inl hk)
    have hrs : ¬ D.deref i → ∀ k : Nat, m.acc[k]? = some (.read i) → (V c).seen k = true := by
      intro hd k hk
      rcases hs with hl | ⟨hu, -⟩
      · exact (hK c).l_read i hl hd k hk
      · exact (hK c).u_sees i hu k (.inr hk)
    have hpast : Past { m with st := upd m.st i (m.st i ++ [r']) } ((V c).atSt i (t + 1)) i := by
      refine ⟨⟨r', by simp [upd_same], hn⟩, fun s q hs hq => ?_⟩
      have hs : ((V c).atSt i (t + 1)).st i ≤ s := hs
      have := View.atSt_st (V c) i (t + 1)
      have hq : (upd m.st i (m.st i ++ [r']) i)[s]? = some q := hq
      rw [upd_same] at hq
      rcases getElem?_snoc hq with h | ⟨-, rfl⟩
      · have := (List.getElem?_eq_some_iff.1 h).1; omega
      · exact hn
    have hk0 : KInv D m (V c) { K c with
        L := fun j => (K c).L j ∧ j ≠ i
        U := fun j => (K c).U j ∧ j ≠ i } := { hK c with
      u_r := fun j h => (hK c).u_r j h.1
      fresh := fun j h => (hK c).fresh j h.1
      u_sees := fun j h => (hK c).u_sees j h.1
      w_val := fun j h => (hK c).w_val j h.1
      l_last := fun j h => (hK c).l_last j h.1
      l_known := fun j h => (hK c).l_known j h.1
      l_write := fun j h => (hK c).l_write j h.1
      l_read := fun j h => (hK c).l_read j h.1
      l_val := fun j h => (hK c).l_val j h.1 }
    have hk := (KInv.frame (K := { K c with
      L := fun j => (K c).L j ∧ j ≠ i
      U := fun j => (K c).U j ∧ j ≠ i }) hext (fun j hj => ⟨fun h => h.2 hj, fun h => h.2 hj⟩) (fun h => h.elim) hk0).mono hle
    refine ⟨trivial, hle, rfl, ?_, ?_,
      fun d hd => (hK d).frame hext (fun j hj => by subst hj; exact ⟨hU d hd, hL d hd⟩) (fun h => h.elim),
      fun h => h.elim⟩
    · refine (hG.st_append hn hlast hstep' (fun _ => by rw [hv']; intro h; cases h) hlim hval (fun _ k hk => hvw.seen k (hws k hk))
        (fun _ hd k hk => hvw.seen k (hrs hd k hk))).upd_L rfl rfl rfl ?_
      rintro j ⟨h, -⟩ d hd h'
      exact hd (hG.disjL d c j h' h)
    · show KInv D { m with st := upd m.st i (m.st i ++ [r']) } _ { K c with
        L := fun j => (K c).L j ∧ j ≠ i
        U := fun j => (K c).U j ∧ j ≠ i
        V := fun j => (K c).V j ∨ j = i
        P := fun j => (K c).P j ∨ j = i }
      refine { hk with
        v := ?_
        p := ?_ }
      · rintro j (h | h)
        · exact hk.v j h
        · subst h; exact hpast
      · rintro j (h | h)
        · exact hk.p j h
        · subst h; exact ⟨hpast, hval, fun _ k hk' => hle.seen k (hws k hk')⟩
  · cases he
  · cases he

/-! ## values -/

/-- Accesses to values. -/
theorem ext_val {f : Nat → Option α} {l : List Access} {T : Nat → Prop}
    (hf : ∀ j, (m.val j).isSome → (f j).isSome) (hl : ∀ a ∈ l, a ≠ .grow)
    (hw : ∀ j, Access.write j ∈ l → T j ∧ (D.deref j → Fresh m j)) (hr : ∀ j, Access.read j ∈ l → T j ∨ (D.deref j ∧ ¬ Fresh m j)) :
    Ext D m { m with val := f, acc := m.acc ++ l } T False where
  res := .inl rfl
  written := .inl rfl
  cap := .inl rfl
  st _ := .inl rfl
  val := hf
  alloc := Nat.le_refl _
  allocAt _ _ := rfl
  alloc_same _ := rfl
  acc := ⟨l, rfl⟩
  grow k hk h := by
    have h : (m.acc ++ l)[k]? = some .grow := h
    rw [List.getElem?_append_right hk] at h
    exact hl _ (List.mem_of_getElem? h) rfl
  write i k hk h := by
    have h : (m.acc ++ l)[k]? = some (.write i) := h
    rw [List.getElem?_append_right hk] at h
    exact hw i (List.mem_of_getElem? h)
  read i k hk h := by
    have h : (m.acc ++ l)[k]? = some (.read i) := h
    rw [List.getElem?_append_right hk] at h
    exact hr i (List.mem_of_getElem? h)

theorem acc_cases {l : List Access} {k : Nat} {a : Access} (h : (m.acc ++ l)[k]? = some a) :
    m.acc[k]? = some a ∨ (a ∈ l ∧ m.acc.length ≤ k ∧ k < m.acc.length + l.length) := by
  rw [List.getElem?_append] at h
  split at h
  · exact .inl h
  · next hk =>
    have := (List.getElem?_eq_some_iff.1 h).1
    exact .inr ⟨List.mem_of_getElem? h, by omega, by omega⟩

/-- The call that accesses values keeps its knowledge. -/
theorem KInv.own {W W' : View} {f : Nat → Option α} {l : List Access} (h : KInv D m W K1) (hle : W.Le W')
    (hf : ∀ j, (m.val j).isSome → (f j).isSome)
    (hs : ∀ k, m.acc.length ≤ k → k < m.acc.length + l.length → W'.seen k = true) :
    KInv D { m with val := f, acc := m.acc ++ l } W' K1 := by
  have hk := h.mono hle
  exact { hk with
    u_sees := fun i hi k hk' => by
      rcases hk' with hk' | hk'
      · rcases acc_cases hk' with h1 | ⟨-, h1, h2⟩
        · exact hk.u_sees i hi k (.inl h1)
        · exact hs k h1 h2
      · rcases acc_cases hk' with h1 | ⟨-, h1, h2⟩
        · exact hk.u_sees i hi k (.inr h1)
        · exact hs k h1 h2
    w_val := fun i hi hw => hf i (hk.w_val i hi hw)
    l_write := fun i hi k hk' => by
      rcases acc_cases hk' with h1 | ⟨-, h1, h2⟩
      · exact hk.l_write i hi k h1
      · exact hs k h1 h2
    l_read := fun i hi hd k hk' => by
      rcases acc_cases hk' with h1 | ⟨-, h1, h2⟩
      · exact hk.l_read i hi hd k h1
      · exact hs k h1 h2
    l_val := fun i hi => hf i (hk.l_val i hi)
    p := fun i hi => by
      obtain ⟨h1, h2, h3⟩ := hk.p i hi
      refine ⟨h1, hf i h2, fun hd k hk' => ?_⟩
      rcases acc_cases hk' with h4 | ⟨-, h4, h5⟩
      · exact h3 hd k h4
      · exact hs k h4 h5
    g := fun hg => by
      obtain ⟨h1, h2, h3, h4, h5⟩ := hk.g hg
      refine ⟨h1, h2, fun k hk' => ?_, h4, h5⟩
      rcases acc_cases hk' with h6 | ⟨-, h6, h7⟩
      · exact h3 k h6
      · exact hs k h6 h7 }

/-- Invariant of the memory after accesses to values. -/
theorem GInv.own {f : Nat → Option α} {l : List Access} (h : GInv D m K)
    (hf : ∀ j, (m.val j).isSome → (f j).isSome) (hl : ∀ a ∈ l, a ≠ .grow)
    (hw : ∀ j, Access.write j ∈ l → j < lastVal m.res ∧ (∀ r, (m.st j).getLast? = some r → r.val ≠ .SOME) ∧ (D.deref j → Fresh m j))
    (hr : ∀ j, Access.read j ∈ l → j < lastVal m.res ∧ ((∀ r, (m.st j).getLast? = some r → r.val ≠ .SOME) ∨ D.deref j)) :
    GInv D { m with val := f, acc := m.acc ++ l } K := { h with
  cap_last := fun hg r hr => by
    obtain ⟨h1, h2⟩ := h.cap_last hg r hr
    refine ⟨h1, fun k hk => ?_⟩
    rcases acc_cases hk with h3 | ⟨h3, -⟩
    · exact h2 k h3
    · exact absurd rfl (hl _ h3)
  st_last := fun i r hr' hs => by
    obtain ⟨h1, h2⟩ := h.st_last i r hr' hs
    refine ⟨fun k hk => ?_, fun hd k hk => ?_⟩
    · rcases acc_cases hk with h3 | ⟨h3, -⟩
      · exact h1 k h3
      · exact absurd hs ((hw i h3).2.1 r hr')
    · rcases acc_cases hk with h3 | ⟨h3, -⟩
      · exact h2 hd k h3
      · rcases (hr i h3).2 with h4 | h4
        · exact absurd hs (h4 r hr')
        · exact absurd h4 hd
  st_val := fun i r hr hn => hf i (h.st_val i r hr hn)
  st_D := fun i t r hd hr hs k hk => by
    rcases acc_cases hk with h3 | ⟨h3, -⟩
    · exact h.st_D i t r hd hr hs k h3
    · obtain ⟨q, hq, hqn⟩ := (hw i h3).2.2 hd
      rw [hq] at hr
      rw [List.getElem?_singleton] at hr
      split at hr
      · injection hr with hr; subst hr; rw [hqn] at hs; cases hs
      · cases hr
  lim := fun i hi => by
    obtain ⟨h1, h2⟩ := h.lim i hi
    refine ⟨h1, fun k => ⟨fun hk => ?_, fun hk => ?_⟩⟩
    · rcases acc_cases hk with h3 | ⟨h3, -⟩
      · exact (h2 k).1 h3
      · have := (hw i h3).1
        have hi : lastVal m.res ≤ i := hi
        omega
    · rcases acc_cases hk with h3 | ⟨h3, -⟩
      · exact (h2 k).2 h3
      · have := (hr i h3).1
        have hi : lastVal m.res ≤ i := hi
        omega }

theorem KInv.not_some {W : View} (h : KInv D m W K1) {i : Nat} (hi : K1.L i ∨ K1.U i) {r : Msg CState}
    (hr : (m.st i).getLast? = some r) : r.val ≠ .SOME := by
  rcases hi with hi | hi
  · obtain ⟨q, h1, h2⟩ := h.l_last i hi
    rw [h1] at hr; injection hr with hr; subst hr; rw [h2]; intro h; cases h
  · rw [fresh_not_last (h.fresh i hi) hr]; intro h; cases h

theorem own_lt (hG : GInv D m K) (hK : ∀ d, KInv D m (V d) (K d)) {i : Nat} (hi : (K c).L i ∨ (K c).U i ∨ (K c).P i) :
    i < lastVal m.res := by
  rcases hi with hi | hi | hi
  · obtain ⟨q, h1, h2⟩ := (hK c).l_last i hi
    exact lt_last_res hG h1 (by rw [h2]; intro h; cases h)
  · have := (hK c).r_rk i ((hK c).u_r i hi)
    have := (hK c).rk.1
    omega
  · obtain ⟨⟨⟨q, h1, h2⟩, -⟩, -⟩ := (hK c).p i hi
    exact lt_last_res hG h1 h2

theorem own_others (hG : GInv D m K) (hK : ∀ d, KInv D m (V d) (K d)) {i : Nat} (hi : (K c).L i ∨ (K c).U i) {d : Cid}
    (hd : d ≠ c) : ¬ (K d).U i ∧ ¬ (K d).L i := by
  rcases hi with hi | hi
  · refine ⟨fun h => ?_, fun h => hd (hG.disjL d c i h hi)⟩
    obtain ⟨q, h1, h2⟩ := (hK c).l_last i hi
    rw [fresh_not_last ((hK d).fresh i h) h1] at h2; cases h2
  · refine ⟨fun h => hd (hG.disjR d c i ((hK d).u_r i h) ((hK c).u_r i hi)), fun h => ?_⟩
    obtain ⟨q, h1, h2⟩ := (hK d).l_last i h
    rw [fresh_not_last ((hK c).fresh i hi) h1] at h2; cases h2

theorem ok_valRead {i : Nat} (hK : ∀ d, KInv D m (V d) (K d))
    (hp : Pre D m.maxCap (K c) (.valRead i : Act α)) {t : Nat} {x : Bad} :
    exec (.valRead i : Act α) t (V c) m ≠ .bad x := by
  obtain ⟨ha, hs⟩ := hp
  simp only [exec, ((hK c).a i ha).1, if_true]
  rw [if_pos]
  · have : (m.val i).isSome := by
      rcases hs with h | ⟨-, h⟩
      · exact (hK c).l_val i h
      · exact ((hK c).p i h).2.1
    obtain ⟨v, hv⟩ := Option.isSome_iff_exists.1 this
    rw [hv]
    intro h; cases h
  · rw [View.sees_iff]
    intro k a hk ha
    simp only [beq_iff_eq] at ha
    subst ha
    rcases hs with h | ⟨hd, h⟩
    · exact (hK c).l_write i h k hk
    · exact ((hK c).p i h).2.2 hd k hk

theorem good_valRead {i : Nat} (hG : GInv D m K) (hK : ∀ d, KInv D m (V d) (K d))
    (hp : Pre D m.maxCap (K c) (.valRead i : Act α)) {t : Nat} {V' : View} {b : α}
    (he : exec (.valRead i : Act α) t (V c) m = .ok V' m' b) : Good D m V K c (.valRead i) V' m' b := by
  obtain ⟨ha, hs⟩ := hp
  simp only [exec, ((hK c).a i ha).1, if_true] at he
  split at he
  · split at he
    · injection he with h1 h2 h3
      subst h1 h2
      have hext : Ext D m { m with val := m.val, acc := m.acc ++ [.read i] } (fun j => j = i ∧ (K c).L i) False :=
        ext_val (fun _ h => h) (by simp) (by simp) (fun j hj => by
          simp only [List.mem_singleton, Access.read.injEq] at hj
          subst hj
          rcases hs with h | ⟨hd, h⟩
          · exact .inl ⟨rfl, h⟩
          · exact .inr ⟨hd, fun hf => fresh_not_past hf ((hK c).p j h).1⟩)
      refine ⟨trivial, View.note_le _ _, rfl, ?_, ?_, fun d hd => (hK d).frame hext (fun j hj => ?_) (fun h => h.elim),
        fun h => h.elim⟩
      · have : GInv D { m with val := m.val, acc := m.acc ++ [.read i] } K := by
          refine hG.own (fun _ h => h) (by simp) (by simp) (fun j hj => ?_)
          simp only [List.mem_singleton, Access.read.injEq] at hj
          subst hj
          rcases hs with h | ⟨hd, h⟩
          · exact ⟨own_lt hG hK (c := c) (.inl h), .inl fun r hr => (hK c).not_some (.inl h) hr⟩
          · exact ⟨own_lt hG hK (c := c) (.inr (.inr h)), .inr hd⟩
        exact this.congr rfl rfl rfl rfl
      · refine (hK c).own (f := m.val) (View.note_le _ _) (fun _ h => h) (fun k h1 h2 => ?_)
        simp only [List.length_singleton] at h2
        have : k = m.acc.length := by omega
        subst this
        exact View.note_seen _ _
      · obtain ⟨rfl, h⟩ := hj
        exact own_others hG hK (.inl h) hd
    · cases he
  · cases he

theorem ok_valWrite {i : Nat} {v : α} (hK : ∀ d, KInv D m (V d) (K d))
    (hp : Pre D m.maxCap (K c) (.valWrite i v : Act α)) {t : Nat} {x : Bad} :
    exec (.valWrite i v : Act α) t (V c) m ≠ .bad x := by
  obtain ⟨ha, hs⟩ := hp
  simp only [exec, ((hK c).a i ha).1, if_true]
  rw [if_pos]
  · intro h; cases h
  · rw [View.sees_iff]
    intro k a hk ha
    simp only [Bool.or_eq_true, beq_iff_eq] at ha
    rcases hs with ⟨h, hd⟩ | ⟨h, -⟩
    · rcases ha with ha | ha <;> subst ha
      · exact (hK c).l_write i h k hk
      · exact (hK c).l_read i h hd k hk
    · rcases ha with ha | ha <;> subst ha
      · exact (hK c).u_sees i h k (.inl hk)
      · exact (hK c).u_sees i h k (.inr hk)

theorem good_valWrite {i : Nat} {v : α} (hG : GInv D m K) (hK : ∀ d, KInv D m (V d) (K d))
    (hp : Pre D m.maxCap (K c) (.valWrite i v : Act α)) {t : Nat} {V' : View} {b : Unit}
    (he : exec (.valWrite i v : Act α) t (V c) m = .ok V' m' b) : Good D m V K c (.valWrite i v) V' m' b := by
  obtain ⟨ha, hs⟩ := hp
  simp only [exec, ((hK c).a i ha).1, if_true] at he
  split at he
  · injection he with h1 h2 h3
    subst h1 h2
    have hf : ∀ j, (m.val j).isSome → (upd m.val i (some v) j).isSome := by
      intro j hj; rw [upd_apply]; split
      · rfl
      · exact hj
    have hown : (K c).L i ∨ (K c).U i := by
      rcases hs with h | h
      · exact .inl h.1
      · exact .inr h.1
    have hD : D.deref i → Fresh m i := by
      intro hd
      rcases hs with h | h
      · exact absurd hd h.2
      · exact (hK c).fresh i h.1
    have hext : Ext D m { m with val := upd m.val i (some v), acc := m.acc ++ [.write i] } (· = i) False :=
      ext_val hf (by simp) (fun j hj => by
        simp only [List.mem_singleton, Access.write.injEq] at hj
        subst hj
        exact ⟨rfl, hD⟩) (by simp)
    refine ⟨trivial, View.note_le _ _, rfl, ?_, ?_, fun d hd => (hK d).frame hext (fun j hj => ?_) (fun h => h.elim),
      fun h => h.elim⟩
    · have : GInv D { m with val := upd m.val i (some v), acc := m.acc ++ [.write i] } K := by
        refine hG.own hf (by simp) (fun j hj => ?_) (by simp)
        simp only [List.mem_singleton, Access.write.injEq] at hj
        subst hj
        exact ⟨own_lt hG hK (c := c) (hown.imp id .inl), fun r hr => (hK c).not_some hown hr, hD⟩
      exact this.congr rfl rfl rfl rfl
    · have hk : KInv D { m with val := upd m.val i (some v), acc := m.acc ++ [.write i] } ((V c).note m.acc.length) (K c) := by
        refine (hK c).own (View.note_le _ _) hf (fun k h1 h2 => ?_)
        simp only [List.length_singleton] at h2
        have : k = m.acc.length := by omega
        subst this
        exact View.note_seen _ _
      show KInv D { m with val := upd m.val i (some v), acc := m.acc ++ [.write i] } _ { K c with
        W := fun j => (K c).W j ∨ j = i }
      refine { hk with w_val := ?_ }
      rintro j hu (h | h)
      · exact hk.w_val j hu h
      · subst h
        show (upd m.val j (some v) j).isSome
        rw [upd_same]; rfl
    · subst hj; exact own_others hG hK hown hd
  · cases he

theorem ok_valSwap {i j : Nat} (hK : ∀ d, KInv D m (V d) (K d))
    (hp : Pre D m.maxCap (K c) (.valSwap i j : Act α)) {t : Nat} {x : Bad} :
    exec (.valSwap i j : Act α) t (V c) m ≠ .bad x := by
  obtain ⟨ha, ha', hl, hl', hne, hd⟩ := hp
  simp only [exec, ((hK c).a i ha).1, ((hK c).a j ha').1, Bool.and_self, if_true]
  rw [if_neg hne, if_pos]
  · obtain ⟨v, hv⟩ := Option.isSome_iff_exists.1 ((hK c).l_val i hl)
    obtain ⟨u, hu⟩ := Option.isSome_iff_exists.1 ((hK c).l_val j hl')
    rw [hv, hu]
    intro h; cases h
  · rw [View.sees_iff]
    intro k a hk ha
    simp only [Bool.or_eq_true, beq_iff_eq] at ha
    rcases ha with ((ha | ha) | ha) | ha <;> subst ha
    · exact (hK c).l_write i hl k hk
    · exact (hK c).l_read i hl hd.1 k hk
    · exact (hK c).l_write j hl' k hk
    · exact (hK c).l_read j hl' hd.2 k hk

theorem good_valSwap {i j : Nat} (hG : GInv D m K) (hK : ∀ d, KInv D m (V d) (K d))
    (hp : Pre D m.maxCap (K c) (.valSwap i j : Act α)) {t : Nat} {V' : View} {b : Unit}
    (he : exec (.valSwap i j : Act α) t (V c) m = .ok V' m' b) : Good D m V K c (.valSwap i j) V' m' b := by
  obtain ⟨ha, ha', hl, hl', hne, hd⟩ := hp
  simp only [exec, ((hK c).a i ha).1, ((hK c).a j ha').1, Bool.and_self, if_true] at he
  rw [if_neg hne] at he
  split at he
  · split at he
    · next v u hv hu =>
      injection he with h1 h2 h3
      subst h1 h2
      have hf : ∀ x, (m.val x).isSome → (upd (upd m.val i (some u)) j (some v) x).isSome := by
        intro x hx; rw [upd_apply]; split
        · rfl
        · rw [upd_apply]; split
          · rfl
          · exact hx
      have hle : (V c).Le (((V c).note m.acc.length).note (m.acc.length + 1)) := (View.note_le _ _).trans (View.note_le _ _)
      have hmem : ∀ x, Access.write x ∈ [Access.write i, .write j] → (K c).L x := by
        intro x hx
        simp only [List.mem_cons, Access.write.injEq, List.not_mem_nil, or_false] at hx
        rcases hx with h | h <;> subst h <;> assumption
      have hmem' : ∀ x, Access.write x ∈ [Access.write i, .write j] → x = i ∨ x = j := by
        intro x hx
        simpa using hx
      have hnd : ∀ x, Access.write x ∈ [Access.write i, .write j] → ¬ D.deref x := by
        intro x hx
        rcases hmem' x hx with h | h
        · rw [h]; exact hd.1
        · rw [h]; exact hd.2
      have hext : Ext D m { m with val := upd (upd m.val i (some u)) j (some v), acc := m.acc ++ [.write i, .write j] }
          (fun x => x = i ∨ x = j) False :=
        ext_val hf (by simp) (fun x hx => ⟨hmem' x hx, fun h => absurd h (hnd x hx)⟩) (by simp)
      refine ⟨trivial, hle, rfl, ?_, ?_, fun d hdc => (hK d).frame hext (fun x hx => ?_) (fun h => h.elim),
        fun h => h.elim⟩
      · have : GInv D { m with val := upd (upd m.val i (some u)) j (some v), acc := m.acc ++ [.write i, .write j] } K := by
          refine hG.own hf (by simp) (fun x hx => ?_) (by simp)
          have := hmem x hx
          exact ⟨own_lt hG hK (c := c) (.inl this), fun r hr => (hK c).not_some (.inl this) hr, fun h => absurd h (hnd x hx)⟩
        exact this.congr rfl rfl rfl rfl
      · refine (hK c).own hle hf (fun k h1 h2 => ?_)
        simp only [List.length_cons, List.length_nil] at h2
        rcases Nat.lt_or_ge m.acc.length k with h | h
        · have : k = m.acc.length + 1 := by omega
          subst this
          exact View.note_seen _ _
        · have : k = m.acc.length := by omega
          subst this
          exact (View.note_le _ _).seen _ (View.note_seen _ _)
      · rcases hx with h | h <;> subst h
        · exact own_others hG hK (.inl hl) hdc
        · exact own_others hG hK (.inl hl') hdc
    · cases he
  · cases he

/-! ## all actions -/

theorem exec_ok {a : Act α} (hG : GInv D m K) (hK : ∀ d, KInv D m (V d) (K d)) (hp : Pre D m.maxCap (K c) a) {t : Nat}
    {x : Bad} : exec a t (V c) m ≠ .bad x := by
  cases a with
  | resFetchAdd n o =>
    simp only [exec]
    split
    · intro h; cases h
    · next hpl =>
      obtain ⟨-, q, hq, hf⟩ := place_middle hpl
      rw [hG.res_rmw t q hq] at hf; cases hf
    · intro h; cases h
  | resLoad o => simp only [exec]; intro h; split at h <;> (first | cases h | (split at h <;> cases h))
  | writtenLoad o => simp only [exec]; intro h; split at h <;> (first | cases h | (split at h <;> cases h))
  | writtenFetchMax n o =>
    simp only [exec]
    split
    · intro h; cases h
    · next hpl =>
      obtain ⟨-, q, hq, hf⟩ := place_middle hpl
      rw [hG.written_rmw t q hq] at hf; cases hf
    · intro h; cases h
  | capLoad o => simp only [exec]; intro h; split at h <;> (first | cases h | (split at h <;> cases h))
  | maxCapLoad => intro h; cases h
  | growAlloc n => exact ok_growAlloc hG hK hp
  | growPublish o => exact ok_growPublish hK hp.2
  | stLoad i o =>
    have hp : (K c).A i := hp
    simp only [exec, ((hK c).a i hp).1, if_true]
    intro h; split at h <;> (first | cases h | (split at h <;> cases h))
  | stCas i e n ok fail => exact ok_stCas hG hK hp
  | stStore i s o => exact ok_stStore hK hp
  | valRead i => exact ok_valRead hK hp
  | valWrite i v => exact ok_valWrite hK hp
  | valSwap i j => exact ok_valSwap hK hp

theorem exec_good {a : Act α} (hG : GInv D m K) (hK : ∀ d, KInv D m (V d) (K d)) (hp : Pre D m.maxCap (K c) a) {t : Nat}
    {V' : View} {b : a.Resp} (he : exec a t (V c) m = .ok V' m' b) : Good D m V K c a V' m' b := by
  cases a with
  | resFetchAdd n o => exact good_resFetchAdd hG hK he
  | resLoad o => exact good_resLoad hG hK he
  | writtenLoad o => exact good_writtenLoad hG hK he
  | writtenFetchMax n o => exact good_writtenFetchMax hG hK hp.1 hp.2 he
  | capLoad o => exact good_capLoad hG hK he
  | maxCapLoad => exact good_maxCapLoad hG hK he
  | growAlloc n => exact good_growAlloc hG hK hp he
  | growPublish o => exact good_growPublish hG hK hp.1 hp.2 he
  | stLoad i o => exact good_stLoad hG hK he
  | stCas i e n ok fail => exact good_stCas hG hK hp he
  | stStore i s o => exact good_stStore hG hK hp he
  | valRead i => exact good_valRead hG hK hp he
  | valWrite i v => exact good_valWrite hG hK hp he
  | valSwap i j => exact good_valSwap hG hK hp he

end Verif.Weak
