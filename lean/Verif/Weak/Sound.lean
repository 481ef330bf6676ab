import Verif.Weak.Step
import Verif.Weak.Typed

/-!
# The invariant holds in every reachable configuration

Helper file (no property statements).
-/

namespace Verif.Weak

variable {α β : Type} {D : Mode}

/-- What a call knows, if it has been made. -/
def Cfg.viewOf (κ : Cfg α β) (c : Cid) : View :=
  match κ.calls c with
  | some r => r.view
  | none => .bot

theorem Cfg.viewOf_some {κ : Cfg α β} {c : Cid} {r : Rec α β} (h : κ.calls c = some r) : κ.viewOf c = r.view := by
  unfold Cfg.viewOf; rw [h]

theorem Cfg.viewOf_none {κ : Cfg α β} {c : Cid} (h : κ.calls c = none) : κ.viewOf c = .bot := by
  unfold Cfg.viewOf; rw [h]

/-- Knowledge that is passed on to calls that happen later. -/
def Know.learn (K : Know) : Know := { Know.empty with V := K.V, A := K.A, P := K.P, rk := K.rk, wn := K.wn }

/-- Knowledge from two sources. -/
def Know.both (K K' : Know) : Know := { Know.empty with
  V := fun i => K.V i ∨ K'.V i
  A := fun i => K.A i ∨ K'.A i
  P := fun i => K.P i ∨ K'.P i
  rk := max K.rk K'.rk
  wn := max K.wn K'.wn }

/-- Nothing but knowledge about the past. -/
structure Know.Passive (K : Know) : Prop where
  u : ∀ i, ¬ K.U i
  l : ∀ i, ¬ K.L i
  r : ∀ i, ¬ K.R i
  gr : ∀ i, ¬ K.Gr i
  g : ¬ K.G
  c : K.C = none

theorem passive_kinv {m : WMem α} {V : View} {K : Know} (h : K.Passive)
    (a : ∀ i, K.A i → m.usable V i = true ∧ Above m.cap V.cap (i + 1)) (v : ∀ i, K.V i → Past m V i)
    (p : ∀ i, K.P i → Past m V i ∧ (m.val i).isSome ∧ (D.deref i → ∀ k : Nat, m.acc[k]? = some (.write i) → V.seen k = true))
    (rk : Above m.res V.res K.rk) (wn : Above m.written V.written K.wn) (lo : K.lo ≤ lastVal m.res) : KInv D m V K where
  u_r i hi := absurd hi (h.u i)
  gr_r i hi := absurd hi (h.gr i)
  r_rk i hi := absurd hi (h.r i)
  fresh i hi := absurd hi (h.u i)
  u_sees i hi := absurd hi (h.u i)
  w_val i hi := absurd hi (h.u i)
  l_last i hi := absurd hi (h.l i)
  l_known i hi := absurd hi (h.l i)
  l_write i hi := absurd hi (h.l i)
  l_read i hi := absurd hi (h.l i)
  l_val i hi := absurd hi (h.l i)
  a := a
  v := v
  p := p
  c x hx := by rw [h.c] at hx; cases hx
  g hg := absurd hg h.g
  rk := rk
  wn := wn
  lo := lo

theorem learn_passive (K : Know) : K.learn.Passive :=
  ⟨fun _ h => h, fun _ h => h, fun _ h => h, fun _ h => h, fun h => h, rfl⟩

theorem both_passive (K K' : Know) : (K.both K').Passive :=
  ⟨fun _ h => h, fun _ h => h, fun _ h => h, fun _ h => h, fun h => h, rfl⟩

theorem KInv.learn {m : WMem α} {V : View} {K : Know} (h : KInv D m V K) : KInv D m V K.learn :=
  passive_kinv (learn_passive K) h.a h.v h.p h.rk h.wn (Nat.zero_le _)

theorem Above.max {h : List (Msg Nat)} {t n n' : Nat} (H : Above h t n) (H' : Above h t n') : Above h t (max n n') :=
  ⟨Nat.max_le.2 ⟨H.1, H'.1⟩, fun s r hs hr => Nat.max_le.2 ⟨H.2 s r hs hr, H'.2 s r hs hr⟩⟩

theorem KInv.both {m : WMem α} {V : View} {K K' : Know} (h : KInv D m V K) (h' : KInv D m V K') :
    KInv D m V (K.both K') :=
  passive_kinv (both_passive K K')
    (fun i hi => hi.elim (h.a i) (h'.a i)) (fun i hi => hi.elim (h.v i) (h'.v i)) (fun i hi => hi.elim (h.p i) (h'.p i))
    (h.rk.max h'.rk) (h.wn.max h'.wn) (Nat.zero_le _)

theorem le_learn (K : Know) : K.Le K.learn := ⟨fun _ h => h, fun _ h => h, fun _ h => h, Nat.le_refl _, Nat.le_refl _⟩

theorem le_both_left (K K' : Know) : K.Le (K.both K') :=
  ⟨fun _ h => .inl h, fun _ h => .inl h, fun _ h => .inl h, Nat.le_max_left _ _, Nat.le_max_left _ _⟩

theorem le_both_right (K K' : Know) : K'.Le (K.both K') :=
  ⟨fun _ h => .inr h, fun _ h => .inr h, fun _ h => .inr h, Nat.le_max_right _ _, Nat.le_max_right _ _⟩

/-- The call is over. -/
def Rec.Over (r : Rec α β) : Prop := (∃ x, r.status = .done x) ∨ ∃ k, r.status = .panicked k

/-- Status of a call against its knowledge. -/
def Fits (D : Mode) (M mx : Nat) (r : Rec α β) (K0 K : Know) : Prop :=
  match r.status with
  | .running p => Safe D M (Done D r.op K0) (Failed D M r.op K0) p K
  | .done x => Done D r.op K0 K x
  | .panicked k => Failed D mx r.op K0 K k

theorem next_le (K : Know) (a : Act α) (b : a.Resp) : K.Le (Weak.next K a b) := by
  cases a with
  | resFetchAdd n o => exact ⟨fun _ h => h, fun _ h => h, fun _ h => h, Nat.le_max_left _ _, Nat.le_refl _⟩
  | resLoad o => exact ⟨fun _ h => h, fun _ h => h, fun _ h => h, Nat.le_max_left _ _, Nat.le_refl _⟩
  | writtenLoad o => exact ⟨fun _ h => .inl h, fun _ h => .inl h, fun _ h => h, Nat.le_refl _, Nat.le_max_left _ _⟩
  | writtenFetchMax n o => exact ⟨fun _ h => h, fun _ h => h, fun _ h => h, Nat.le_refl _, Nat.le_max_left _ _⟩
  | capLoad o => exact ⟨fun _ h => h, fun _ h => .inl h, fun _ h => h, Nat.le_refl _, Nat.le_refl _⟩
  | maxCapLoad => exact .refl _
  | growAlloc n => exact ⟨fun _ h => h, fun _ h => h, fun _ h => h, Nat.le_refl _, Nat.le_refl _⟩
  | growPublish o => exact ⟨fun _ h => h, fun _ h => .inl h, fun _ h => h, Nat.le_refl _, Nat.le_refl _⟩
  | stLoad i o => exact ⟨fun _ h => .inl h, fun _ h => h, fun _ h => .inl h, Nat.le_refl _, Nat.le_refl _⟩
  | stCas i e n ok fail =>
    change Option CState at b
    rcases b with _ | s
    · exact ⟨fun _ h => .inl h, fun _ h => h, fun _ h => .inl h, Nat.le_refl _, Nat.le_refl _⟩
    · exact ⟨fun _ h => .inl h, fun _ h => h, fun _ h => h, Nat.le_refl _, Nat.le_refl _⟩
  | stStore i s o => exact ⟨fun _ h => .inl h, fun _ h => h, fun _ h => .inl h, Nat.le_refl _, Nat.le_refl _⟩
  | valRead i => exact .refl _
  | valWrite i v => exact ⟨fun _ h => h, fun _ h => h, fun _ h => h, Nat.le_refl _, Nat.le_refl _⟩
  | valSwap i j => exact .refl _

structure WInv (D : Mode) (mx n : Nat) (κ : Cfg α β) (K K0 : Cid → Know) : Prop where
  bad : κ.bad = none
  g : GInv D κ.mem K
  k : ∀ d, KInv D κ.mem (κ.viewOf d) (K d)
  next : 1 ≤ κ.next
  new : ∀ d, κ.next ≤ d → κ.calls d = none ∧ K d = .empty
  none : κ.calls 0 = none
  zero : ∀ i, i < n → (K 0).V i ∧ (K 0).A i ∧ (K 0).P i
  zrk : n ≤ (K 0).rk
  zwn : n ≤ (K 0).wn
  base : ∀ c r, κ.calls c = some r → (K 0).Le (K0 c)
  hb : ∀ c r, κ.calls c = some r → ∀ d ∈ r.hb, (∃ r', κ.calls d = some r' ∧ r'.Over) ∧ (K d).Le (K0 c)
  fits : ∀ c r, κ.calls c = some r → Fits D κ.mem.maxCap mx r (K0 c) (K c)
  now : ∀ c r, κ.calls c = some r → (K0 c).Le (K c)

variable {mx n : Nat} {κ κ' : Cfg α β} {K K0 : Cid → Know}

/-- Knowledge from the calls that happen before. -/
theorem ended_know (h : WInv D mx n κ K K0) {H : List Cid} {V : View} (he : Ended κ H V) :
    ∃ K1 : Know, K1.Passive ∧ KInv D κ.mem V K1 ∧ K1.lo = 0 ∧ (K 0).Le K1 ∧
      ∀ d ∈ H, (∃ r', κ.calls d = some r' ∧ r'.Over) ∧ (K d).Le K1 := by
  induction he with
  | nil =>
    refine ⟨(K 0).learn, learn_passive _, ?_, rfl, le_learn _, by simp⟩
    have := (h.k 0).learn
    rwa [Cfg.viewOf_none h.none] at this
  | @done c H V r x hc hs hH ih =>
    obtain ⟨K1, h1, h2, h3, h4, h5⟩ := ih
    refine ⟨(K c).both K1, both_passive _ _, ?_, rfl, h4.trans (le_both_right _ _), ?_⟩
    · have := h.k c
      rw [Cfg.viewOf_some hc] at this
      exact (this.mono (View.le_join_left _ _)).both (h2.mono (View.le_join_right _ _))
    · intro d hd
      rcases List.mem_cons.1 hd with hd | hd
      · subst hd; exact ⟨⟨r, hc, .inl ⟨x, hs⟩⟩, le_both_left _ _⟩
      · exact ⟨(h5 d hd).1, (h5 d hd).2.trans (le_both_right _ _)⟩
  | @panicked c H V r k hc hs hH ih =>
    obtain ⟨K1, h1, h2, h3, h4, h5⟩ := ih
    refine ⟨(K c).both K1, both_passive _ _, ?_, rfl, h4.trans (le_both_right _ _), ?_⟩
    · have := h.k c
      rw [Cfg.viewOf_some hc] at this
      exact (this.mono (View.le_join_left _ _)).both (h2.mono (View.le_join_right _ _))
    · intro d hd
      rcases List.mem_cons.1 hd with hd | hd
      · subst hd; exact ⟨⟨r, hc, .inr ⟨k, hs⟩⟩, le_both_left _ _⟩
      · exact ⟨(h5 d hd).1, (h5 d hd).2.trans (le_both_right _ _)⟩

theorem WInv.call (h : WInv D mx n κ K K0) {op : Op α β} (ha : Allowed D op) {H : List Cid} {V : View} (hH : Ended κ H V)
    (hn : ∀ i ∈ op.needs, κ.Revealed H i) (hp : ∀ i ∈ op.needsPtr, κ.RevealedPtr H i) :
    ∃ K2 : Know, K2.Passive ∧ (∀ i ∈ op.needs, K2.V i ∧ K2.A i) ∧ WInv D mx n { κ with
        calls := upd κ.calls κ.next (some ⟨op, H, V, V, .running op.prog⟩)
        next := κ.next + 1 } (upd K κ.next K2) (upd K0 κ.next K2) := by
  obtain ⟨K1, h1, h2, h3, h4, h5⟩ := ended_know h hH
  have hnew := h.new κ.next (Nat.le_refl _)
  have hz : (0 : Cid) ≠ κ.next := Nat.ne_of_lt h.next
  let K2 : Know := { Know.empty with V := K1.V, A := K1.A, P := K1.P, rk := K1.rk, wn := K1.wn, lo := lastVal κ.mem.res }
  have hK2 : K2.Passive := ⟨fun _ h => h, fun _ h => h, fun _ h => h, fun _ h => h, fun h => h, rfl⟩
  have hle : K1.Le K2 := ⟨fun _ h => h, fun _ h => h, fun _ h => h, Nat.le_refl _, Nat.le_refl _⟩
  have hk2 : KInv D κ.mem V K2 := passive_kinv hK2 h2.a h2.v h2.p h2.rk h2.wn (Nat.le_refl _)
  have hcalls : ∀ d, d ≠ κ.next → ∀ r, κ.calls d = some r →
      (upd κ.calls κ.next (some ⟨op, H, V, V, .running op.prog⟩)) d = some r := by
    intro d hd r hr; rw [upd_apply, if_neg hd]; exact hr
  have hne : ∀ d r, κ.calls d = some r → d ≠ κ.next := by
    intro d r hr he; rw [he, hnew.1] at hr; cases hr
  have hneed : ∀ i ∈ op.needs, K2.V i ∧ K2.A i := by
    intro i hi
    obtain ⟨d, hd, r, x, h6, h7, h8⟩ := hn i hi
    have := h.fits d r h6
    unfold Fits at this
    rw [h7] at this
    have := this.el i h8
    have hl := (h5 d hd).2
    exact ⟨hl.v i this.1, hl.a i this.2⟩
  have hcn : ∀ i ∈ op.needs, i < K2.wn := by
    intro i hi
    obtain ⟨d, hd, r, x, h6, h7, h8⟩ := hn i hi
    have := h.fits d r h6
    unfold Fits at this
    rw [h7] at this
    exact Nat.lt_of_lt_of_le (this.cn i h8) (h5 d hd).2.wn
  refine ⟨K2, hK2, hneed, ?_⟩
  refine
    { bad := h.bad
      g := by
        refine h.g.congr ?_ ?_ ?_ ?_ <;> rw [hnew.2] <;> rfl
      k := fun d => ?_
      next := Nat.le_succ_of_le h.next
      new := fun d hd => ?_
      none := by show upd κ.calls κ.next _ 0 = _; rw [upd_apply, if_neg hz]; exact h.none
      zero := by rw [upd_apply, if_neg hz]; exact h.zero
      zrk := by rw [upd_apply, if_neg hz]; exact h.zrk
      zwn := by rw [upd_apply, if_neg hz]; exact h.zwn
      base := fun c r hc => ?_
      hb := fun c r hc d hd => ?_
      fits := fun c r hc => ?_
      now := fun c r hc => ?_ }
  · rcases Nat.lt_trichotomy d κ.next with hd | hd | hd
    · have hd : d ≠ κ.next := Nat.ne_of_lt hd
      rw [upd_apply, if_neg hd]
      have := h.k d
      unfold Cfg.viewOf at this ⊢
      simp only [upd_apply, if_neg hd]
      exact this
    · subst hd
      rw [upd_apply, if_pos rfl]
      unfold Cfg.viewOf
      simp only [upd_apply, if_true]
      exact hk2
    · have hd : d ≠ κ.next := Nat.ne_of_gt hd
      rw [upd_apply, if_neg hd]
      have := h.k d
      unfold Cfg.viewOf at this ⊢
      simp only [upd_apply, if_neg hd]
      exact this
  · have hd : κ.next + 1 ≤ d := hd
    have hd' : d ≠ κ.next := Nat.ne_of_gt hd
    show upd κ.calls κ.next _ d = _ ∧ _
    rw [upd_apply, if_neg hd', upd_apply, if_neg hd']
    exact h.new d (Nat.le_of_succ_le hd)
  · have hc : upd κ.calls κ.next _ c = some r := hc
    rw [upd_apply] at hc
    rw [upd_apply (f := K), if_neg hz, upd_apply]
    split at hc
    · next he => rw [if_pos he]; exact h4.trans hle
    · next he => rw [if_neg he]; exact h.base c r hc
  · have hc : upd κ.calls κ.next _ c = some r := hc
    rw [upd_apply] at hc
    rw [upd_apply (f := K0)]
    split at hc
    · next he =>
      injection hc with hc
      subst hc
      obtain ⟨⟨r', h6, h7⟩, h8⟩ := h5 d hd
      rw [if_pos he]
      refine ⟨⟨r', hcalls d (hne d r' h6) r' h6, h7⟩, ?_⟩
      rw [upd_apply, if_neg (hne d r' h6)]
      exact h8.trans hle
    · next he =>
      obtain ⟨⟨r', h6, h7⟩, h8⟩ := h.hb c r hc d hd
      rw [if_neg he]
      refine ⟨⟨r', hcalls d (hne d r' h6) r' h6, h7⟩, ?_⟩
      rw [upd_apply, if_neg (hne d r' h6)]
      exact h8
  · have hc : upd κ.calls κ.next _ c = some r := hc
    rw [upd_apply] at hc
    split at hc
    · next he =>
      injection hc with hc
      subst hc
      subst he
      rw [upd_apply, if_pos rfl, upd_apply, if_pos rfl]
      show Safe D κ.mem.maxCap (Done D op K2) (Failed D κ.mem.maxCap op K2) op.prog K2
      refine op_safe ha ⟨hK2.u, hK2.l, hK2.r, hK2.gr, hK2.g, hneed, hcn, fun i hi => ?_⟩
      · obtain ⟨d, hd, r, x, h6, h7, h8⟩ := hp i hi
        have := h.fits d r h6
        unfold Fits at this
        rw [h7] at this
        have := this.pt i h8
        have hl := (h5 d hd).2
        exact ⟨hl.v i this.1, hl.a i this.2.1, fun hd => hl.p i (this.2.2 hd)⟩
    · next he =>
      rw [upd_apply, if_neg he, upd_apply, if_neg he]
      exact h.fits c r hc
  · have hc : upd κ.calls κ.next _ c = some r := hc
    rw [upd_apply] at hc
    split at hc
    · next he => rw [upd_apply, if_pos he, upd_apply, if_pos he]; exact .refl _
    · next he => rw [upd_apply, if_neg he, upd_apply, if_neg he]; exact h.now c r hc

/-- A call goes on, everything else stays. -/
theorem WInv.update (h : WInv D mx n κ K K0) {c : Cid} {r : Rec α β} (hc : κ.calls c = some r) {V : View} {m : WMem α}
    {s : Status α β} {K1 : Know} (hrun : ∃ p, r.status = .running p) (hmax : m.maxCap = κ.mem.maxCap)
    (hg : GInv D m (upd K c K1)) (hk : KInv D m V K1) (ho : ∀ d, d ≠ c → KInv D m (κ.viewOf d) (K d))
    (hle : (K c).Le K1) (hf : Fits D κ.mem.maxCap mx { r with view := V, status := s } (K0 c) K1) :
    WInv D mx n { κ with mem := m, calls := upd κ.calls c (some { r with view := V, status := s }) } (upd K c K1) K0 := by
  have hcz : (0 : Cid) ≠ c := by intro he; rw [← he, h.none] at hc; cases hc
  have hcn : ∀ d, κ.next ≤ d → d ≠ c := by
    intro d hd he; rw [he] at hd; rw [(h.new c hd).1] at hc; cases hc
  have hover : ∀ d r', κ.calls d = some r' → r'.Over → d ≠ c := by
    intro d r' hr' ho he
    subst he
    rw [hc] at hr'; injection hr' with hr'; subst hr'
    obtain ⟨p, hp⟩ := hrun
    rcases ho with ⟨x, hx⟩ | ⟨k, hx⟩ <;> rw [hp] at hx <;> cases hx
  refine
    { bad := h.bad
      g := hg
      k := fun d => ?_
      next := h.next
      new := fun d hd => ?_
      none := by show upd κ.calls c _ 0 = _; rw [upd_apply, if_neg hcz]; exact h.none
      zero := by rw [upd_apply, if_neg hcz]; exact h.zero
      zrk := by rw [upd_apply, if_neg hcz]; exact h.zrk
      zwn := by rw [upd_apply, if_neg hcz]; exact h.zwn
      base := fun d r' hd => ?_
      hb := fun d r' hd e he => ?_
      fits := fun d r' hd => ?_
      now := fun d r' hd => ?_ }
  · rcases Decidable.em (d = c) with hd | hd
    · subst hd
      rw [upd_apply, if_pos rfl]
      unfold Cfg.viewOf
      simp only [upd_apply, if_true]
      exact hk
    · rw [upd_apply, if_neg hd]
      have := ho d hd
      unfold Cfg.viewOf at this ⊢
      simp only [upd_apply, if_neg hd]
      exact this
  · have hd : κ.next ≤ d := hd
    show upd κ.calls c _ d = _ ∧ _
    rw [upd_apply, if_neg (hcn d hd), upd_apply, if_neg (hcn d hd)]
    exact h.new d hd
  · have hd : upd κ.calls c _ d = some r' := hd
    rw [upd_apply] at hd
    rw [upd_apply, if_neg hcz]
    split at hd
    · next he => rw [he]; exact h.base c r hc
    · exact h.base d r' hd
  · have hd : upd κ.calls c _ d = some r' := hd
    rw [upd_apply] at hd
    have key : ∃ r0, κ.calls d = some r0 ∧ r0.hb = r'.hb := by
      split at hd
      · next hdc =>
        injection hd with hd
        exact ⟨r, by rw [hdc]; exact hc, by rw [← hd]⟩
      · exact ⟨r', hd, rfl⟩
    obtain ⟨r0, h0, h1⟩ := key
    obtain ⟨⟨r2, h2, h3⟩, h4⟩ := h.hb d r0 h0 e (by rw [h1]; exact he)
    have hec := hover e r2 h2 h3
    refine ⟨⟨r2, ?_, h3⟩, ?_⟩
    · show upd κ.calls c _ e = _
      rw [upd_apply, if_neg hec]; exact h2
    · rw [upd_apply, if_neg hec]; exact h4
  · have hd : upd κ.calls c _ d = some r' := hd
    rw [upd_apply] at hd
    split at hd
    · next hdc =>
      injection hd with hd
      subst hd
      subst hdc
      rw [upd_apply, if_pos rfl]
      show Fits D m.maxCap _ _ _ _; rw [hmax]; exact hf
    · next hdc =>
      rw [upd_apply, if_neg hdc]
      show Fits D m.maxCap _ _ _ _
      rw [hmax]; exact h.fits d r' hd
  · have hd : upd κ.calls c _ d = some r' := hd
    rw [upd_apply] at hd
    split at hd
    · next hdc => rw [upd_apply, if_pos hdc, hdc]; exact (h.now c r hc).trans hle
    · next hdc => rw [upd_apply, if_neg hdc]; exact h.now d r' hd

theorem upd_self {γ : Type} (f : Cid → γ) (c : Cid) : upd f c (f c) = f := by
  funext d
  rw [upd_apply]
  split
  · next h => rw [h]
  · rfl

theorem GInv.reserveMax {m : WMem α} (h : GInv D m K) (n : Nat) : GInv D (m.reserveMax n) K :=
  { h with good := (m.pol.reserve_ok n h.good).2 }

theorem KInv.reserveMax {m : WMem α} {V : View} {K : Know} (h : KInv D m V K) (n : Nat) : KInv D (m.reserveMax n) V K :=
  { h with }

theorem Fits.idle {M M' : Nat} {r : Rec α β} {K0 K : Know} (h : Fits D M mx r K0 K) (hr : ∀ p, r.status ≠ .running p) :
    Fits D M' mx r K0 K := by
  unfold Fits at h ⊢
  split
  · next p hp => exact absurd hp (hr p)
  · next x hx => rw [hx] at h; exact h
  · next k hk => rw [hk] at h; exact h

theorem WInv.reserveMax (h : WInv D mx n κ K K0) (q : Nat) (hi : κ.Idle) : WInv D mx n { κ with mem := κ.mem.reserveMax q } K K0 :=
  { bad := h.bad
    g := h.g.reserveMax q
    k := fun d => (h.k d).reserveMax q
    next := h.next
    new := h.new
    none := h.none
    zero := h.zero
    zrk := h.zrk
    zwn := h.zwn
    base := h.base
    hb := h.hb
    fits := fun c r hc => (h.fits c r hc).idle fun p hp => hi c r.op ⟨r, p, hc, rfl, hp⟩
    now := h.now }

/-- The maximum capacity never gets smaller, and it stays the same while somebody is running. -/
theorem WInv.maxCap_le (h : WInv D mx n κ K K0) (hs : Step κ κ') :
    κ.mem.maxCap ≤ κ'.mem.maxCap ∧ (¬ κ.Idle → κ'.mem.maxCap = κ.mem.maxCap) := by
  cases hs with
  | act c r a again k t V m b hc hr he =>
    have hf := h.fits c r hc
    unfold Fits at hf
    rw [hr] at hf
    rw [← Cfg.viewOf_some hc] at he
    have : m.maxCap = κ.mem.maxCap := (exec_good h.g h.k hf.1 he).max
    exact ⟨Nat.le_of_eq this.symm, fun _ => this⟩
  | reserveMax q hi => exact ⟨(κ.mem.pol.reserve_ok q h.g.good).1, fun hn => absurd hi hn⟩
  | _ => exact ⟨Nat.le_refl _, fun _ => rfl⟩

/-- Whoever has exceeded the maximum capacity has exceeded `mx`. -/
def Cfg.Exceeds (κ : Cfg α β) (mx : Nat) : Prop := ∀ c op, κ.Panicked c op .maxCapacity → mx ≤ κ.mem.maxCap

theorem Fits.panicked {c : Cid} {r : Rec α β} {k : PanicKind} (hx : Cfg.Exceeds ({ κ with calls := upd κ.calls c (some { r with status := .panicked k }) } : Cfg α β) mx)
    (hf : Failed D κ.mem.maxCap r.op (K0 c) (K c) k) : Failed D mx r.op (K0 c) (K c) k :=
  hf.lower fun hk => hx c r.op ⟨_, upd_same _ _ _, rfl, by rw [← hk]⟩

theorem WInv.step (h : WInv D mx n κ K K0) (hs : Step κ κ') (ho : ∀ c op, κ'.Called c op → Allowed D op) (hx : κ'.Exceeds mx) :
    ∃ K' K0', WInv D mx n κ' K' K0' := by
  cases hs with
  | call op H V hH hn hp =>
    obtain ⟨K2, -, -, h2⟩ := h.call (ho κ.next op ⟨_, upd_same _ _ _, rfl⟩) hH hn hp
    exact ⟨_, _, h2⟩
  | act c r a again k t V m b hc hr he =>
    have hf := h.fits c r hc
    unfold Fits at hf
    rw [hr] at hf
    have hview := Cfg.viewOf_some hc
    rw [← hview] at he
    have hpre : Pre D κ.mem.maxCap (K c) a := hf.1
    have hgood := exec_good h.g h.k hpre he
    have hcan : Can D κ.mem.maxCap (K c) a b := hgood.can
    obtain ⟨h1, h2⟩ := hf.2 b hcan
    rcases hab : again b with _ | _
    · refine ⟨upd K c (Weak.next (K c) a b), K0, ?_⟩
      refine h.update hc ⟨_, hr⟩ hgood.max hgood.g hgood.k hgood.others (next_le _ _ _) ?_
      show Safe D κ.mem.maxCap (Done D r.op (K0 c)) (Failed D κ.mem.maxCap r.op (K0 c)) _ _
      exact h2 hab
    · have hm := hgood.keeps (h1 hab)
      subst hm
      refine ⟨upd K c (K c), K0, ?_⟩
      refine h.update hc ⟨_, hr⟩ rfl (by rw [upd_self]; exact h.g) ((h.k c).mono hgood.le) (fun d _ => h.k d) (.refl _) ?_
      show Safe D κ.mem.maxCap (Done D r.op (K0 c)) (Failed D κ.mem.maxCap r.op (K0 c)) _ _
      exact hf
  | bad c r a again k t x hc hr he =>
    have hf := h.fits c r hc
    unfold Fits at hf
    rw [hr] at hf
    rw [← Cfg.viewOf_some hc] at he
    have hpre : Pre D κ.mem.maxCap (K c) a := hf.1
    exact absurd he (exec_ok h.g h.k hpre)
  | ret c r x hc hr =>
    have hf := h.fits c r hc
    unfold Fits at hf
    rw [hr] at hf
    refine ⟨upd K c (K c), K0, ?_⟩
    have := h.k c
    rw [Cfg.viewOf_some hc] at this
    exact h.update hc (V := r.view) (s := .done x) ⟨_, hr⟩ rfl (by rw [upd_self]; exact h.g) this (fun d _ => h.k d) (.refl _) hf
  | panic c r k hc hr =>
    have hf := h.fits c r hc
    unfold Fits at hf
    rw [hr] at hf
    refine ⟨upd K c (K c), K0, ?_⟩
    have := h.k c
    rw [Cfg.viewOf_some hc] at this
    exact h.update hc (V := r.view) (s := .panicked k) ⟨_, hr⟩ rfl (by rw [upd_self]; exact h.g) this (fun d _ => h.k d) (.refl _) (Fits.panicked hx hf)
  | reserveMax n hi => exact ⟨K, K0, h.reserveMax n hi⟩

theorem Step.called (hs : Step κ κ') (hn : ∀ d, κ.next ≤ d → κ.calls d = none) {c : Cid} {op : Op α β} (h : κ.Called c op) :
    κ'.Called c op := by
  obtain ⟨r, hr, ho⟩ := h
  cases hs with
  | call op H V hH hn' hp =>
    refine ⟨r, ?_, ho⟩
    have : c ≠ κ.next := by intro he; rw [he, hn _ (Nat.le_refl _)] at hr; cases hr
    show upd κ.calls κ.next _ c = _
    rw [upd_apply, if_neg this]; exact hr
  | act d r' a again k t V m b hc hr' he =>
    rcases Decidable.em (c = d) with hd | hd
    · subst hd
      rw [hr] at hc; injection hc with hc; subst hc
      exact ⟨_, upd_same _ _ _, ho⟩
    · refine ⟨r, ?_, ho⟩
      show upd κ.calls d _ c = _
      rw [upd_apply, if_neg hd]; exact hr
  | bad d r' a again k t x hc hr' he => exact ⟨r, hr, ho⟩
  | ret d r' x hc hr' =>
    rcases Decidable.em (c = d) with hd | hd
    · subst hd
      rw [hr] at hc; injection hc with hc; subst hc
      exact ⟨_, upd_same _ _ _, ho⟩
    · refine ⟨r, ?_, ho⟩
      show upd κ.calls d _ c = _
      rw [upd_apply, if_neg hd]; exact hr
  | panic d r' k hc hr' =>
    rcases Decidable.em (c = d) with hd | hd
    · subst hd
      rw [hr] at hc; injection hc with hc; subst hc
      exact ⟨_, upd_same _ _ _, ho⟩
    · refine ⟨r, ?_, ho⟩
      show upd κ.calls d _ c = _
      rw [upd_apply, if_neg hd]; exact hr
  | reserveMax n hi => exact ⟨r, hr, ho⟩

theorem Reach.new {m : Mem α} (h : Reach m κ) : ∀ d, κ.next ≤ d → κ.calls d = none := by
  induction h with
  | init => intro d _; rfl
  | @step κ κ' _ hs ih =>
    intro d hd
    have key : ∀ c r x, κ.calls c = some r → κ.next ≤ d → upd κ.calls c x d = none := by
      intro c r x hc hd
      rw [upd_apply]
      split
      · next he => rw [← he, ih d hd] at hc; cases hc
      · exact ih d hd
    cases hs with
    | call op H V hH hn' hp =>
      have hd : κ.next + 1 ≤ d := hd
      show upd κ.calls κ.next _ d = _
      rw [upd_apply, if_neg (Nat.ne_of_gt hd)]; exact ih d (Nat.le_of_succ_le hd)
    | act d r' a again k t V m b hc hr' he => exact key _ _ _ hc hd
    | bad d r' a again k t x hc hr' he => exact ih _ hd
    | ret d r' x hc hr' => exact key _ _ _ hc hd
    | panic d r' k hc hr' => exact key _ _ _ hc hd
    | reserveMax n hi => exact ih _ hd

/-! ## the beginning -/

/-- What everybody knows at the beginning. -/
def Know.start (n : Nat) : Know := { Know.empty with
  V := fun i => i < n
  A := fun i => i < n
  P := fun i => i < n
  rk := n
  wn := n }

theorem single {γ : Type} {x r : γ} {t : Nat} (h : [x][t]? = some r) : t = 0 ∧ r = x := by
  rw [List.getElem?_singleton] at h
  split at h
  · injection h with h; exact ⟨by assumption, h.symm⟩
  · cases h

theorem winv_init {m : Mem α} {l : List α} (hm : InitMem m l) :
    WInv D mx l.length (Cfg.init m : Cfg α β) (upd (fun _ => .empty) 0 (.start l.length)) (fun _ => .empty) := by
  have hKR : ∀ d i, ¬ (upd (fun _ => Know.empty) 0 (Know.start l.length) d).R i := by
    intro d i h; rw [upd_apply] at h; split at h <;> exact h
  have hKL : ∀ d i, ¬ (upd (fun _ => Know.empty) 0 (Know.start l.length) d).L i := by
    intro d i h; rw [upd_apply] at h; split at h <;> exact h
  have hKG : ∀ d, ¬ (upd (fun _ => Know.empty) 0 (Know.start l.length) d).G := by
    intro d h; rw [upd_apply] at h; split at h <;> exact h
  have hpast : ∀ i, i < l.length → Past (WMem.init m) View.bot i := by
    intro i hi
    have hst : m.st i = .SOME := by rw [hm.st, if_pos hi]
    refine ⟨⟨.init (m.st i), rfl, ?_⟩, fun t r _ hr => ?_⟩
    · show m.st i ≠ _; rw [hst]; decide
    · obtain ⟨-, rfl⟩ := single hr
      show m.st i ≠ _; rw [hst]; decide
  have hus : ∀ (V : View) i, i < m.cap → (WMem.init m).usable V i = true := by
    intro V i hi
    unfold WMem.usable
    rw [Bool.and_eq_true, decide_eq_true_eq]
    exact ⟨hi, rfl⟩
  have habove : ∀ (t : Nat) i, i < m.cap → Above (WMem.init m).cap t (i + 1) := by
    intro t i hi
    refine ⟨hi, fun t' r _ hr => ?_⟩
    obtain ⟨-, rfl⟩ := single hr
    exact hi
  have hlast : lastVal (WMem.init m).res = l.length := hm.reserved
  refine
    { bad := rfl
      g := ?_
      k := fun d => ?_
      next := Nat.le_refl _
      new := fun d hd => ⟨rfl, ?_⟩
      none := rfl
      zero := fun i hi => ⟨hi, hi, hi⟩
      zrk := Nat.le_refl _
      zwn := Nat.le_refl _
      base := fun c r hc => by cases hc
      hb := fun c r hc => by cases hc
      fits := fun c r hc => by cases hc
      now := fun c r hc => by cases hc }
  · refine
      { res_ne := by simp [Cfg.init, WMem.init]
        res_rmw := fun t r hr => by obtain ⟨h, -⟩ := single hr; omega
        res_mono := fun t t' r r' _ hr hr' => by rw [(single hr).2, (single hr').2]; exact Nat.le_refl _
        written_ne := by simp [Cfg.init, WMem.init]
        written_rmw := fun t r hr => by obtain ⟨h, -⟩ := single hr; omega
        written_mono := fun t t' r r' _ hr hr' => by rw [(single hr).2, (single hr').2]; exact Nat.le_refl _
        written_msg := fun t r hr i hi => by
          obtain ⟨-, rfl⟩ := single hr
          have hi : i < m.written := hi
          rw [hm.written] at hi
          exact ⟨hpast i hi, hus _ i (Nat.lt_of_lt_of_le hi hm.cap), habove _ i (Nat.lt_of_lt_of_le hi hm.cap)⟩
        cap_ne := by simp [Cfg.init, WMem.init]
        cap_mono := fun t t' r r' _ hr hr' => by rw [(single hr).2, (single hr').2]; exact Nat.le_refl _
        cap_msg := fun t r hr i hi => by
          obtain ⟨-, rfl⟩ := single hr
          exact hus _ i hi
        cap_old := fun t r hr ht => by
          obtain ⟨h, -⟩ := single hr
          have ht : t + 1 < 1 := ht
          omega
        cap_last := fun _ r hr => by
          have hr : some (Msg.init m.cap) = some r := hr
          injection hr with hr
          subst hr
          exact ⟨rfl, fun k hk => by have hk : ([] : List Access)[k]? = _ := hk; simp at hk⟩
        good := hm.good
        st_ne := fun i => by simp [Cfg.init, WMem.init]
        st_step := fun i t a b _ hb => by obtain ⟨h, -⟩ := single hb; omega
        st_last := fun i r hr _ => ⟨fun k hk => by have hk : ([] : List Access)[k]? = _ := hk; simp at hk,
          fun _ k hk => by have hk : ([] : List Access)[k]? = _ := hk; simp at hk⟩
        st_val := fun i r hr hn => by
          have hr : some (Msg.init (m.st i)) = some r := hr
          injection hr with hr
          subst hr
          have hn : m.st i ≠ .NONE := hn
          rw [hm.st] at hn
          split at hn
          · next hi =>
            show (m.val i).isSome
            rw [hm.val, List.getElem?_eq_getElem hi]; rfl
          · exact absurd rfl hn
        st_D := fun i t r _ _ _ k hk => by have hk : ([] : List Access)[k]? = _ := hk; simp at hk
        st_N := fun _ i t r hr => by
          obtain ⟨-, rfl⟩ := single hr
          show m.st i ≠ _
          rw [hm.st]; split <;> decide
        lim := fun i hi => by
          have hi : lastVal (WMem.init m).res ≤ i := hi
          rw [hlast] at hi
          refine ⟨⟨.init (m.st i), rfl, ?_⟩, fun k => ⟨fun hk => ?_, fun hk => ?_⟩⟩
          · show m.st i = _; rw [hm.st, if_neg (by omega)]
          · have hk : ([] : List Access)[k]? = _ := hk; simp at hk
          · have hk : ([] : List Access)[k]? = _ := hk; simp at hk
        disjR := fun c d i h => absurd h (hKR c i)
        disjL := fun c d i h => absurd h (hKL c i)
        disjG := fun c d h => absurd h (hKG c) }
  · have hpas : (upd (fun _ => Know.empty) 0 (Know.start l.length) d).Passive := by
      rw [upd_apply]
      split <;> exact ⟨fun _ h => h, fun _ h => h, fun _ h => h, fun _ h => h, fun h => h, rfl⟩
    show KInv D (WMem.init m) View.bot _
    refine passive_kinv hpas ?_ ?_ ?_ ?_ ?_ ?_
    · intro i hi
      rw [upd_apply] at hi
      split at hi
      · have hi : i < l.length := hi
        exact ⟨hus _ i (Nat.lt_of_lt_of_le hi hm.cap), habove _ i (Nat.lt_of_lt_of_le hi hm.cap)⟩
      · exact hi.elim
    · intro i hi
      rw [upd_apply] at hi
      split at hi
      · exact hpast i hi
      · exact hi.elim
    · intro i hi
      rw [upd_apply] at hi
      split at hi
      · have hi : i < l.length := hi
        refine ⟨hpast i hi, ?_, fun _ k hk => by have hk : ([] : List Access)[k]? = _ := hk; simp at hk⟩
        show (m.val i).isSome
        rw [hm.val, List.getElem?_eq_getElem hi]; rfl
      · exact hi.elim
    · have hle : (upd (fun _ => Know.empty) 0 (Know.start l.length) d).rk ≤ l.length := by
        rw [upd_apply]; split
        · exact Nat.le_refl _
        · exact Nat.zero_le _
      refine Above.le (n := l.length) ⟨by rw [hlast]; exact Nat.le_refl _, fun t' r _ hr => ?_⟩ hle
      obtain ⟨-, rfl⟩ := single hr
      exact Nat.le_of_eq hm.reserved.symm
    · have hle : (upd (fun _ => Know.empty) 0 (Know.start l.length) d).wn ≤ l.length := by
        rw [upd_apply]; split
        · exact Nat.le_refl _
        · exact Nat.zero_le _
      refine Above.le (n := l.length) ⟨Nat.le_of_eq hm.written.symm, fun t' r _ hr => ?_⟩ hle
      obtain ⟨-, rfl⟩ := single hr
      exact Nat.le_of_eq hm.written.symm
    · rw [upd_apply]; split <;> exact Nat.zero_le _
  · have hd : 1 ≤ d := hd
    rw [upd_apply, if_neg (Nat.ne_of_gt hd)]

theorem winv_max {m : Mem α} {l : List α} (hm : InitMem m l) (h : Reach m κ) (ho : ∀ c op, κ.Called c op → Allowed D op) :
    m.maxCap ≤ κ.mem.maxCap ∧ ∃ K K0, WInv D m.maxCap l.length κ K K0 := by
  induction h with
  | init => exact ⟨Nat.le_refl _, _, _, winv_init hm⟩
  | step hr hs ih =>
    obtain ⟨h1, K, K0, hi⟩ := ih (fun c op hc => ho c op (Step.called hs (Reach.new hr) hc))
    have h2 := Nat.le_trans h1 (hi.maxCap_le hs).1
    exact ⟨h2, hi.step hs ho fun _ _ _ => h2⟩

theorem winv {m : Mem α} {l : List α} (hm : InitMem m l) (h : Reach m κ) (ho : ∀ c op, κ.Called c op → Allowed D op) :
    ∃ K K0, WInv D m.maxCap l.length κ K K0 := (winv_max hm h ho).2

theorem Reach.exceeds {m : Mem α} {l : List α} (h : Reach m κ) (hm : InitMem m l) (ho : ∀ c op, κ.Called c op → Allowed D op) :
    κ.Exceeds m.maxCap := fun _ _ _ => (winv_max hm h ho).1

/-! ## consequences -/

theorem WInv.hb_le (h : WInv D mx n κ K K0) {c d : Cid} (hcd : κ.HB c d) :
    (∃ r, κ.calls c = some r ∧ r.Over) ∧ (K c).Le (K0 d) := by
  induction hcd with
  | one hr hc => exact h.hb _ _ hr _ hc
  | trans _ _ ih1 ih2 =>
    refine ⟨ih1.1, ih1.2.trans (Know.Le.trans ?_ ih2.2)⟩
    obtain ⟨r, hr, ho⟩ := ih2.1
    have hf := h.fits _ r hr
    unfold Fits at hf
    rcases ho with ⟨x, hx⟩ | ⟨k, hx⟩
    · rw [hx] at hf; exact hf.le
    · rw [hx] at hf; exact hf.le

theorem WInv.done (h : WInv D mx n κ K K0) {c : Cid} {op : Op α β} {x : Ret α β} (hr : κ.Returned c op x) :
    Done D op (K0 c) (K c) x := by
  obtain ⟨r, h1, h2, h3⟩ := hr
  have hf := h.fits c r h1
  unfold Fits at hf
  rw [h3, h2] at hf
  exact hf

theorem WInv.failed (h : WInv D mx n κ K K0) {c : Cid} {op : Op α β} {k : PanicKind} (hr : κ.Panicked c op k) :
    Failed D mx op (K0 c) (K c) k := by
  obtain ⟨r, h1, h2, h3⟩ := hr
  have hf := h.fits c r h1
  unfold Fits at hf
  rw [h3, h2] at hf
  exact hf

end Verif.Weak
