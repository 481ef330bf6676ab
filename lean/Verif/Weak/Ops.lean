import Verif.Weak.Know
import Verif.Spec.Progress

/-!
# The programs under weak memory

Helper file (no property statements).
-/

set_option linter.unusedSimpArgs false

namespace Verif.Weak

variable {α β ρ : Type} {D : Mode} {mx : Nat} {K : Know} {Q : Know → ρ → Prop} {QP : Know → PanicKind → Prop}

/-- Knowledge that is never lost. -/
structure Know.Le (K K' : Know) : Prop where
  v : ∀ i, K.V i → K'.V i
  a : ∀ i, K.A i → K'.A i
  p : ∀ i, K.P i → K'.P i
  rk : K.rk ≤ K'.rk
  wn : K.wn ≤ K'.wn

theorem Know.Le.refl (K : Know) : K.Le K := ⟨fun _ h => h, fun _ h => h, fun _ h => h, Nat.le_refl _, Nat.le_refl _⟩

theorem Know.Le.trans {K K' K'' : Know} (h : K.Le K') (h' : K'.Le K'') : K.Le K'' :=
  ⟨fun i x => h'.v i (h.v i x), fun i x => h'.a i (h.a i x), fun i x => h'.p i (h.p i x), Nat.le_trans h.rk h'.rk,
    Nat.le_trans h.wn h'.wn⟩

/-- The call owns nothing. -/
structure Know.Free (K : Know) : Prop where
  l : ∀ i, ¬ K.L i
  r : ∀ i, ¬ K.R i

theorem Know.Free.own {K : Know} (h : K.Free) : ∀ i, K.R i → K.A i := fun i hi => absurd hi (h.r i)

/-- The call may wait for the handle of `i`. -/
def Know.May (K : Know) (D : Mode) (i : Nat) : Prop := (∀ j, ¬ K.R j) ∧ ∀ j, K.L j → D.nest j i

theorem Know.Free.may {K : Know} (h : K.Free) (i : Nat) : K.May D i := ⟨h.r, fun j hj => absurd hj (h.l j)⟩

/-- More knowledge, the same rights. -/
structure Know.Up (K K' : Know) : Prop where
  le : K.Le K'
  u : ∀ i, K'.U i ↔ K.U i
  l : ∀ i, K'.L i ↔ K.L i
  r : ∀ i, K'.R i ↔ K.R i
  gr : ∀ i, K'.Gr i ↔ K.Gr i
  g : K'.G ↔ K.G

theorem Know.Up.refl (K : Know) : K.Up K := ⟨.refl K, fun _ => .rfl, fun _ => .rfl, fun _ => .rfl, fun _ => .rfl, .rfl⟩

theorem Know.Up.trans {K K' K'' : Know} (h : K.Up K') (h' : K'.Up K'') : K.Up K'' :=
  ⟨h.le.trans h'.le, fun i => (h'.u i).trans (h.u i), fun i => (h'.l i).trans (h.l i), fun i => (h'.r i).trans (h.r i),
    fun i => (h'.gr i).trans (h.gr i), h'.g.trans h.g⟩

theorem Know.Free.up {K K' : Know} (h : K.Free) (hu : K.Up K') : K'.Free :=
  ⟨fun i hi => h.l i ((hu.l i).1 hi), fun i hi => h.r i ((hu.r i).1 hi)⟩

theorem Know.May.up {K K' : Know} {i : Nat} (h : K.May D i) (hu : K.Up K') : K'.May D i :=
  ⟨fun j hj => h.1 j ((hu.r j).1 hj), fun j hj => h.2 j ((hu.l j).1 hj)⟩

theorem w_act {a : Act α} {k : a.Resp → Prog α ρ} (hp : Pre D mx K a)
    (hk : ∀ b, Can D mx K a b → Safe D mx Q QP (k b) (next K a b)) : Safe D mx Q QP ((act a).bind k) K := by
  refine ⟨hp, fun b hb => ⟨fun h => ?_, fun _ => hk b hb⟩⟩
  cases h

/-! ## loads -/

theorem w_resLoad {o : MOrd} {k : Nat → Prog α ρ}
    (hk : ∀ K' b, K.Up K' → K.rk ≤ b → b ≤ K'.rk → Safe D mx Q QP (k b) K') :
    Safe D mx Q QP ((act (.resLoad o)).bind k) K := by
  refine w_act trivial fun b hb => ?_
  refine hk _ b ⟨⟨fun _ h => h, fun _ h => h, fun _ h => h, Nat.le_max_left _ _, Nat.le_refl _⟩, fun _ => .rfl,
    fun _ => .rfl, fun _ => .rfl, fun _ => .rfl, .rfl⟩ hb (Nat.le_max_right _ _)

theorem w_capLoad {k : Nat → Prog α ρ}
    (hk : ∀ K' b, K.Up K' → (∀ i, K.A i → i < b) → (∀ i, i < b → K'.A i) → K'.C = some b → Safe D mx Q QP (k b) K') :
    Safe D mx Q QP ((act (.capLoad .acquire)).bind k) K := by
  refine w_act trivial fun b hb => ?_
  refine hk _ b ⟨⟨fun _ h => h, fun _ h => .inl h, fun _ h => h, Nat.le_refl _, Nat.le_refl _⟩, fun _ => .rfl,
    fun _ => .rfl, fun _ => .rfl, fun _ => .rfl, .rfl⟩ hb (fun i hi => .inr ⟨rfl, hi⟩) rfl

theorem w_spinCap {stop : Nat → Bool} {k : Nat → Prog α ρ}
    (hw : ∀ b, stop b = true → (∃ i, K.R i) ∧ ∀ i, K.R i → b < i ∧ i < mx)
    (hk : ∀ K' b, stop b = false → K.Up K' → (∀ i, K.A i → i < b) → (∀ i, i < b → K'.A i) → K'.C = some b →
      Safe D mx Q QP (k b) K') :
    Safe D mx Q QP ((spin (.capLoad .acquire : Act α) stop).bind k) K := by
  refine ⟨trivial, fun b hb => ⟨fun h => hw b h, fun hs => ?_⟩⟩
  refine hk _ b hs ⟨⟨fun _ h => h, fun _ h => .inl h, fun _ h => h, Nat.le_refl _, Nat.le_refl _⟩, fun _ => .rfl,
    fun _ => .rfl, fun _ => .rfl, fun _ => .rfl, .rfl⟩ hb (fun i hi => .inr ⟨rfl, hi⟩) rfl

theorem w_maxCap {k : Nat → Prog α ρ} (hk : Safe D mx Q QP (k mx) K) :
    Safe D mx Q QP ((act .maxCapLoad).bind k) K := by
  refine w_act trivial fun b hb => ?_
  have hb : b = mx := hb
  subst hb; exact hk

theorem w_colGet {i : Nat} {k : Option Nat → Prog α ρ} (h1 : ∀ K', K.Up K' → K'.A i → Safe D mx Q QP (k (some i)) K')
    (h2 : ¬ K.A i → ∀ K', K.Up K' → Safe D mx Q QP (k none) K') : Safe D mx Q QP ((Col.get i).bind k) K := by
  simp only [Col.get, Prog.bind_eq, Prog.bind_assoc, Prog.pure_eq, Prog.ret_bind]
  refine w_capLoad fun K' b hu h3 h4 _ => ?_
  split
  · next h => exact h1 K' hu (h4 i h)
  · next h => exact h2 (fun hA => h (h3 i hA)) K' hu

/-! ## `len` -/

theorem w_settled {hi : Nat} : ∀ {n : Nat} {K : Know} {lo : Nat} {k : Nat → Prog α ρ}, hi = lo + n → (∀ i, i < hi → K.A i) →
    (∀ i, i < lo → K.V i) →
    (∀ K' b, K.Up K' → lo ≤ b → b ≤ hi → (∀ i, i < b → K'.V i) → (D.nolock → b < hi → ¬ K.V b) →
      Safe D mx Q QP (k b) K') →
    Safe D mx Q QP ((CVec.settled lo n).bind k) K := by
  intro n
  induction n with
  | zero =>
    intro K lo k hn _ hV hk
    exact hk K lo (.refl K) (Nat.le_refl _) (by omega) hV (fun _ h => by omega)
  | succ n ih =>
    intro K lo k hn hA hV hk
    simp only [CVec.settled, Prog.bind_eq, Prog.bind_assoc]
    refine w_act (hA lo (by omega)) fun s hs => ?_
    have hs : (K.V lo → s ≠ CState.NONE) ∧ (D.nolock → s ≠ CState.RESERVED) := hs
    have hup : K.Up (next K (.stLoad lo .relaxed : Act α) s) :=
      ⟨⟨fun _ h => .inl h, fun _ h => h, fun _ h => .inl h, Nat.le_refl _, Nat.le_refl _⟩, fun _ => .rfl,
        fun _ => .rfl, fun _ => .rfl, fun _ => .rfl, .rfl⟩
    split
    · next h =>
      have h : s = CState.SOME := h
      refine ih (by omega) (fun i hi => hup.le.a i (hA i hi)) (fun i hi => ?_) (fun K' b hu h1 h2 h3 h4 => ?_)
      · rcases Nat.lt_or_ge i lo with hlt | hge
        · exact hup.le.v i (hV i hlt)
        · exact .inr ⟨by omega, by rw [h]; intro h; cases h⟩
      · exact hk K' b (hup.trans hu) (by omega) h2 h3 (fun hn hb hv => h4 hn hb (hup.le.v b hv))
    · next h =>
      have h : s ≠ CState.SOME := h
      refine hk _ lo hup (Nat.le_refl _) (by omega) (fun i hi => hup.le.v i (hV i hi)) (fun hn _ hv => ?_)
      have h1 := hs.1 hv
      have h2 := hs.2 hn
      cases hc : s
      · exact h1 hc
      · exact h2 hc
      · exact h hc

theorem w_len {k : Nat → Prog α ρ}
    (hk : ∀ K' n, K.Up K' → K.wn ≤ n → n ≤ K'.wn → (∀ i, i < n → K'.V i ∧ K'.A i) →
      (D.nolock → ∀ x, x ≤ K.rk → (∀ i, i < x → K.V i ∧ K.A i) → x ≤ n) → Safe D mx Q QP (k n) K') :
    Safe D mx Q QP (CVec.len.bind k) K := by
  simp only [CVec.len, Prog.bind_eq, Prog.bind_assoc]
  refine w_act trivial fun (b : Nat) hb => ?_
  have hb : K.wn ≤ b := hb
  have hup : K.Up (next K (.writtenLoad .acquire : Act α) b) :=
    ⟨⟨fun _ h => .inl h, fun _ h => .inl h, fun _ h => h, Nat.le_refl _, Nat.le_max_left _ _⟩, fun _ => .rfl,
      fun _ => .rfl, fun _ => .rfl, fun _ => .rfl, .rfl⟩
  have hV1 : ∀ i, i < b → (next K (.writtenLoad .acquire : Act α) b).V i := fun i hi => .inr ⟨rfl, hi⟩
  have hA1 : ∀ i, i < b → (next K (.writtenLoad .acquire : Act α) b).A i := fun i hi => .inr ⟨rfl, hi⟩
  have hw1 : b ≤ (next K (.writtenLoad .acquire : Act α) b).wn := Nat.le_max_right _ _
  generalize next K (.writtenLoad .acquire : Act α) b = K1 at *
  refine w_capLoad fun K2 cap hu2 h3 h4 _ => ?_
  refine w_resLoad fun K3 r hu3 h5 h6 => ?_
  generalize hi : (if (show Nat from r) ≤ (show Nat from cap) then r else cap) = until'
  have hle : until' ≤ cap := by rw [← hi]; dsimp only; split <;> omega
  have hbc : b ≤ cap := by
    rcases Nat.eq_zero_or_pos b with h | h
    · omega
    · have := h3 (b - 1) (hA1 _ (by omega)); omega
  refine w_settled (hi := max b until') (lo := b) (n := until' - b) (by omega)
    (fun i hi => hu3.le.a i (h4 i (by omega))) (fun i hi => (hu2.trans hu3).le.v i (hV1 i hi)) ?_
  intro K4 n hu4 h7 h8 h9 h10
  have hA4 : ∀ i, i < n → K4.A i := fun i hi => (hu3.trans hu4).le.a i (h4 i (by omega))
  refine w_act ⟨rfl, fun i hi => ⟨h9 i hi, hA4 i hi⟩⟩ fun _ _ => ?_
  have hup5 : K4.Up (next K4 (.writtenFetchMax n .release : Act α) ()) :=
    ⟨⟨fun _ h => h, fun _ h => h, fun _ h => h, Nat.le_refl _, Nat.le_max_left _ _⟩, fun _ => .rfl,
      fun _ => .rfl, fun _ => .rfl, fun _ => .rfl, .rfl⟩
  refine hk _ n ((((hup.trans hu2).trans hu3).trans hu4).trans hup5) (Nat.le_trans hb h7) (Nat.le_max_right _ _)
    (fun i hi => ⟨hup5.le.v i (h9 i hi), hup5.le.a i (hA4 i hi)⟩) ?_
  intro hnl x hx hall
  refine Nat.le_of_not_lt fun hlt => ?_
  have hn : n < until' := by
    have h11 : x ≤ r := Nat.le_trans hx (Nat.le_trans (Nat.le_trans hup.le.rk hu2.le.rk) h5)
    have h12 : x ≤ cap := by
      have := h3 (x - 1) (hup.le.a _ (hall (x - 1) (by omega)).2); omega
    rw [← hi]; dsimp only; split <;> omega
  exact h10 hnl (by omega) ((hup.trans (hu2.trans hu3)).le.v n (hall n hlt).1)

theorem w_reservedLen {k : Nat → Prog α ρ}
    (hk : ∀ K' n, K.Up K' → (∀ i, i < n → K'.A i) → (∀ i, i < K.rk → K.A i → i < n) →
      Safe D mx Q QP (k n) K') :
    Safe D mx Q QP (CVec.reservedLen.bind k) K := by
  simp only [CVec.reservedLen, Prog.bind_eq, Prog.bind_assoc, Prog.pure_eq, Prog.ret_bind]
  refine w_resLoad fun K2 r hu2 h1 h2 => ?_
  refine w_capLoad fun K3 cap hu3 h3 h4 _ => ?_
  refine hk K3 _ (hu2.trans hu3) (fun i hi => h4 i ?_) (fun i hi hA => ?_)
  · split at hi <;> omega
  · have : i < cap := h3 i (hu2.le.a _ hA)
    split <;> omega

theorem w_get {i : Nat} {k : Option Nat → Prog α ρ}
    (h1 : ∀ K', K.Up K' → K'.V i → K'.A i → i < K'.wn → Safe D mx Q QP (k (some i)) K')
    (h2 : ∀ K', K.Up K' → K.wn ≤ i → (D.nolock → i < K.rk → ¬ ∀ j, j ≤ i → K.V j ∧ K.A j) → Safe D mx Q QP (k none) K') :
    Safe D mx Q QP ((CVec.get i).bind k) K := by
  simp only [CVec.get, Prog.bind_eq, Prog.bind_assoc]
  refine w_len fun K1 n hu hn hn' hall hc => ?_
  split
  · next h =>
    refine w_colGet (fun K2 hu2 hA => h1 K2 (hu.trans hu2) (hu2.le.v i (hall i h).1) hA
        (Nat.lt_of_lt_of_le h (Nat.le_trans hn' hu2.le.wn)))
      (fun hA => absurd (hall i h).2 hA)
  · next h =>
    simp only [Prog.pure_eq, Prog.ret_bind]
    refine h2 K1 hu (by omega) (fun hnl hr hj => ?_)
    have := hc hnl (i + 1) hr (fun j hj' => hj j (by omega))
    omega

theorem w_iter {k : List Nat → Prog α ρ}
    (hk : ∀ K' n, K.Up K' → K.wn ≤ n → n ≤ K'.wn → (∀ i, i < n → K'.V i ∧ K'.A i) →
      (D.nolock → ∀ x, x ≤ K.rk → (∀ i, i < x → K.V i ∧ K.A i) → x ≤ n) → Safe D mx Q QP (k (positions 0 n)) K') :
    Safe D mx Q QP (CVec.iter.bind k) K := by
  simp only [CVec.iter, Prog.bind_eq, Prog.bind_assoc, Prog.pure_eq, Prog.ret_bind]
  exact w_len hk

theorem rangeLimits_le (r : Rng) (n : Nat) : (rangeLimits r n).2 ≤ n ∧ (rangeLimits r n).1 ≤ (rangeLimits r n).2 := by
  unfold rangeLimits
  exact ⟨Nat.min_le_right _ _, Nat.min_le_right _ _⟩

theorem w_slice {r : Rng} {k : Slc → Prog α ρ}
    (hk : ∀ K' (s : Slc) n, K.Up K' → K.wn ≤ n → n ≤ K'.wn → s = ⟨(rangeLimits r n).1, (rangeLimits r n).2 - (rangeLimits r n).1⟩ →
      (∀ i ∈ positions s.a s.len, (K'.V i ∧ K'.A i) ∧ i < K'.wn) →
      (D.nolock → ∀ x, x ≤ K.rk → (∀ i, i < x → K.V i ∧ K.A i) → x ≤ n) → Safe D mx Q QP (k s) K') :
    Safe D mx Q QP ((CVec.slice r).bind k) K := by
  simp only [CVec.slice, Prog.bind_eq, Prog.bind_assoc, Prog.pure_eq, Prog.ret_bind]
  refine w_len fun K1 n hu hn hn' hall hc => ?_
  refine hk K1 _ n hu hn hn' rfl (fun i hi => ?_) hc
  rw [List.mem_range'_1] at hi
  dsimp only at hi
  have := rangeLimits_le r n
  exact ⟨hall i (by omega), by omega⟩

theorem rangeLimits_full (n n' : Nat) (h : n ≤ n') : rangeLimits (.co 0 n) n' = (0, n) := by
  simp only [rangeLimits, Rng.co]
  rw [Nat.min_eq_left h, Nat.zero_min]

theorem w_asSlice {k : Slc → Prog α ρ}
    (hk : ∀ K' n, K.Up K' → K.wn ≤ n → n ≤ K'.wn → (∀ i, i < n → K'.V i ∧ K'.A i) →
      (D.nolock → ∀ x, x ≤ K.rk → (∀ i, i < x → K.V i ∧ K.A i) → x ≤ n) → Safe D mx Q QP (k ⟨0, n⟩) K') :
    Safe D mx Q QP (CVec.asSlice.bind k) K := by
  simp only [CVec.asSlice, Prog.bind_eq, Prog.bind_assoc]
  refine w_len fun K1 n hu hn hn' hall hc => ?_
  refine w_slice fun K2 s n2 hu2 h1 h2 hs _ _ => ?_
  rw [rangeLimits_full n n2 (by omega)] at hs
  subst hs
  exact hk K2 n (hu.trans hu2) hn (Nat.le_trans hn' hu2.le.wn) (fun i hi => ⟨hu2.le.v i (hall i hi).1, hu2.le.a i (hall i hi).2⟩) hc

theorem w_getRaw {o : MOrd} {i : Nat} {k : Option Nat → Prog α ρ} (hA : K.A i)
    (h1 : ∀ K', K.Up K' → K'.V i → (o.acq = true → K'.P i) → Safe D mx Q QP (k (some i)) K')
    (h2 : ∀ K', K.Up K' → (D.nolock → ¬ K.V i) → Safe D mx Q QP (k none) K') :
    Safe D mx Q QP ((COpt.getRaw o i).bind k) K := by
  simp only [COpt.getRaw, Prog.bind_eq, Prog.bind_assoc, Prog.pure_eq, Prog.ret_bind]
  refine w_act hA fun s hs => ?_
  have hs : (K.V i → s ≠ CState.NONE) ∧ (D.nolock → s ≠ CState.RESERVED) := hs
  have hup : K.Up (next K (.stLoad i o : Act α) s) :=
    ⟨⟨fun _ h => .inl h, fun _ h => h, fun _ h => .inl h, Nat.le_refl _, Nat.le_refl _⟩, fun _ => .rfl,
      fun _ => .rfl, fun _ => .rfl, fun _ => .rfl, .rfl⟩
  split
  · next h =>
    have h : s = CState.SOME := h
    exact h1 _ hup (.inr ⟨rfl, by rw [h]; intro h; cases h⟩) (fun ho => .inr ⟨rfl, h, ho⟩)
  · next h =>
    have h : s ≠ CState.SOME := h
    refine h2 _ hup fun hn hv => ?_
    have h1 := hs.1 hv
    have h2 := hs.2 hn
    cases hc : s
    · exact h1 hc
    · exact h2 hc
    · exact h hc

theorem w_rawRefs {o : MOrd} : ∀ {l : List Nat} {K : Know} {k : List Nat → Prog α ρ}, (∀ i ∈ l, K.A i) →
    (∀ K' ps, K.Up K' → (∀ i ∈ ps, K'.V i ∧ K'.A i ∧ (o.acq = true → K'.P i)) → Safe D mx Q QP (k ps) K') →
    Safe D mx Q QP ((Loop.rawRefs o l).bind k) K := by
  intro l
  induction l with
  | nil => intro K k _ hk; exact hk K [] (.refl K) (by simp)
  | cons i is ih =>
    intro K k hA hk
    simp only [Loop.rawRefs, Prog.bind_eq, Prog.bind_assoc]
    refine w_getRaw (hA i (by simp)) (fun K1 hu hV hP => ?_) (fun K1 hu _ => ?_)
    · refine ih (fun j hj => hu.le.a j (hA j (by simp [hj]))) fun K2 ps hu2 hps => ?_
      refine hk K2 (i :: ps) (hu.trans hu2) fun j hj => ?_
      rcases List.mem_cons.1 hj with h | h
      · subst h
        exact ⟨hu2.le.v _ hV, (hu.trans hu2).le.a _ (hA _ (by simp)), fun ho => hu2.le.p _ (hP ho)⟩
      · exact hps j h
    · refine ih (fun j hj => hu.le.a j (hA j (by simp [hj]))) fun K2 ps hu2 hps => ?_
      exact hk K2 ps (hu.trans hu2) hps

/-! ## elements -/

/-- Knowledge while the handle of `i` is held. -/
def Know.hold (K : Know) (i : Nat) : Know := { K with
  L := fun j => K.L j ∨ j = i
  V := fun j => K.V j ∨ j = i
  P := fun j => K.P j ∨ j = i }

theorem w_lock {i : Nat} {k : Bool → Prog α ρ} (hA : K.A i) (hn : ¬ D.nolock) (hw : K.May D i)
    (h1 : ¬ K.L i → ¬ K.U i → Safe D mx Q QP (k true) (K.hold i))
    (h2 : ¬ K.V i → ∀ K', K.Up K' → Safe D mx Q QP (k false) K') : Safe D mx Q QP ((COpt.lock i).bind k) K := by
  simp only [COpt.lock, Prog.bind_eq, Prog.bind_assoc, Prog.pure_eq, Prog.ret_bind]
  refine ⟨⟨hA, rfl, rfl, rfl, hn⟩, fun (b : Option CState) hb => ⟨fun h => ?_, fun h => ?_⟩⟩
  · have h : (b == some .RESERVED) = true := h
    rw [beq_iff_eq] at h
    subst h; exact ⟨rfl, hw.1, hw.2⟩
  · have h : (b == some .RESERVED) = false := h
    rcases b with _ | s
    · exact h1 hb.1 hb.2
    · have hb : s ≠ .SOME ∧ (K.V i → s ≠ .NONE) := hb
      have hs : s = .NONE := by
        cases s
        · rfl
        · cases h
        · exact absurd rfl hb.1
      refine h2 (fun hv => hb.2 hv hs) _ ⟨⟨fun _ h => .inl h, fun _ h => h, fun _ h => h, Nat.le_refl _, Nat.le_refl _⟩, fun _ => .rfl,
        fun _ => .rfl, fun _ => .rfl, fun _ => .rfl, .rfl⟩

theorem w_tryLock {i : Nat} {k : Bool → Prog α ρ} (hA : K.A i) (hn : ¬ D.nolock)
    (h1 : ¬ K.L i → ¬ K.U i → Safe D mx Q QP (k true) (K.hold i))
    (h2 : ∀ K', K.Up K' → Safe D mx Q QP (k false) K') : Safe D mx Q QP ((COpt.tryLock i).bind k) K := by
  simp only [COpt.tryLock, Prog.bind_eq, Prog.bind_assoc, Prog.pure_eq, Prog.ret_bind]
  refine w_act ⟨hA, rfl, rfl, rfl, hn⟩ fun (b : Option CState) hb => ?_
  rcases b with _ | s
  · exact h1 hb.1 hb.2
  · exact h2 _ ⟨⟨fun _ h => .inl h, fun _ h => h, fun _ h => h, Nat.le_refl _, Nat.le_refl _⟩, fun _ => .rfl,
      fun _ => .rfl, fun _ => .rfl, fun _ => .rfl, .rfl⟩

theorem w_valRead {i : Nat} {k : α → Prog α ρ} (hA : K.A i) (hl : K.L i) (hk : ∀ v, Safe D mx Q QP (k v) K) :
    Safe D mx Q QP ((act (.valRead i)).bind k) K := w_act ⟨hA, .inl hl⟩ fun v _ => hk v

theorem w_valWrite {i : Nat} {v : α} {k : Unit → Prog α ρ} (hA : K.A i) (hl : K.L i) (hd : ¬ D.deref i)
    (hk : Safe D mx Q QP (k ()) { K with W := fun j => K.W j ∨ j = i }) :
    Safe D mx Q QP ((act (.valWrite i v)).bind k) K := w_act ⟨hA, .inl ⟨hl, hd⟩⟩ fun _ _ => hk

theorem w_unlock {i : Nat} {k : Unit → Prog α ρ} (hA : K.A i) (hl : K.L i)
    (hk : Safe D mx Q QP (k ()) { K with
      L := fun j => K.L j ∧ j ≠ i
      U := fun j => K.U j ∧ j ≠ i
      V := fun j => K.V j ∨ j = i
      P := fun j => K.P j ∨ j = i }) :
    Safe D mx Q QP ((COpt.unlock i).bind k) K := w_act ⟨hA, rfl, rfl, .inl hl⟩ fun _ _ => hk

/-- Releasing the handle that was taken. -/
theorem up_release {i : Nat} {W : Nat → Prop} (hl : ¬ K.L i) (hu : ¬ K.U i) :
    K.Up { K with
      L := fun j => (K.L j ∨ j = i) ∧ j ≠ i
      U := fun j => K.U j ∧ j ≠ i
      V := fun j => (K.V j ∨ j = i) ∨ j = i
      P := fun j => (K.P j ∨ j = i) ∨ j = i
      W := W } := by
  refine ⟨⟨fun _ h => .inl (.inl h), fun _ h => h, fun _ h => .inl (.inl h), Nat.le_refl _, Nat.le_refl _⟩, fun j => ?_, fun j => ?_,
    fun _ => .rfl, fun _ => .rfl, .rfl⟩
  · exact ⟨fun h => h.1, fun h => ⟨h, fun he => hu (he ▸ h)⟩⟩
  · exact ⟨fun h => h.1.resolve_right h.2, fun h => ⟨.inl h, fun he => hl (he ▸ h)⟩⟩

theorem w_clone {i : Nat} {k : Option α → Prog α ρ} (hA : K.A i) (hn : ¬ D.nolock) (hf : K.Free)
    (h1 : ∀ K' v, K.Up K' → K'.V i → Safe D mx Q QP (k (some v)) K')
    (h2 : ¬ K.V i → ∀ K', K.Up K' → Safe D mx Q QP (k none) K') :
    Safe D mx Q QP ((COpt.cloneIntoOption i).bind k) K := by
  simp only [COpt.cloneIntoOption, Prog.bind_eq, Prog.bind_assoc]
  refine w_lock hA hn (hf.may i) (fun hl hu => ?_) (fun hv K' hK => by simpa using h2 hv K' hK)
  simp only [if_true, Prog.bind_eq, Prog.bind_assoc, Prog.pure_eq, Prog.ret_bind]
  refine w_valRead hA (.inr rfl) fun v => ?_
  refine w_unlock hA (.inr rfl) ?_
  exact h1 _ v (up_release hl hu) (.inr rfl)

theorem w_map {γ : Type} {f : α → Option γ} {i : Nat} {k : Option γ → Prog α ρ} (hA : K.A i) (hn : ¬ D.nolock) (hf : K.Free)
    (hu : (∃ v, f v = none) → ∀ K', K.Up K' → QP K' .userCode)
    (h1 : ∀ K' v, K.Up K' → Safe D mx Q QP (k (some v)) K')
    (h2 : ¬ K.V i → ∀ K', K.Up K' → Safe D mx Q QP (k none) K') :
    Safe D mx Q QP ((COpt.map f i).bind k) K := by
  simp only [COpt.map, Prog.bind_eq, Prog.bind_assoc]
  refine w_lock hA hn (hf.may i) (fun hl hu' => ?_) (fun hv K' hK => by simpa using h2 hv K' hK)
  simp only [if_true, Prog.bind_eq, Prog.bind_assoc, Prog.pure_eq, Prog.ret_bind]
  refine w_valRead hA (.inr rfl) fun v => ?_
  refine w_unlock hA (.inr rfl) ?_
  split
  · exact h1 _ _ (up_release hl hu')
  · next h => exact hu ⟨v, h⟩ _ (up_release hl hu')

theorem w_isSomeAnd {f : α → Option Bool} {i : Nat} {k : Bool → Prog α ρ} (hA : K.A i) (hn : ¬ D.nolock) (hf : K.Free)
    (hu : (∃ v, f v = none) → ∀ K', K.Up K' → QP K' .userCode)
    (h1 : ∀ K' v, K.Up K' → Safe D mx Q QP (k v) K') :
    Safe D mx Q QP ((COpt.isSomeAnd f i).bind k) K := by
  simp only [COpt.isSomeAnd, Prog.bind_eq, Prog.bind_assoc]
  refine w_lock hA hn (hf.may i) (fun hl hu' => ?_) (fun hv K' hK => by simpa using h1 K' false hK)
  simp only [if_true, Prog.bind_eq, Prog.bind_assoc, Prog.pure_eq, Prog.ret_bind]
  refine w_valRead hA (.inr rfl) fun v => ?_
  refine w_unlock hA (.inr rfl) ?_
  split
  · exact h1 _ _ (up_release hl hu')
  · next h => exact hu ⟨v, h⟩ _ (up_release hl hu')

theorem w_elCloned {i : Nat} {k : α → Prog α ρ} (hA : K.A i) (hV : K.V i) (hn : ¬ D.nolock) (hf : K.Free)
    (h1 : ∀ K' v, K.Up K' → Safe D mx Q QP (k v) K') : Safe D mx Q QP ((Elem.cloned i).bind k) K := by
  simp only [Elem.cloned, Prog.bind_eq, Prog.bind_assoc]
  exact w_clone hA hn hf (fun K' v hu _ => h1 K' v hu) (fun h => absurd hV h)

theorem w_elMap {γ : Type} {f : α → Option γ} {i : Nat} {k : γ → Prog α ρ} (hA : K.A i) (hV : K.V i) (hn : ¬ D.nolock) (hf : K.Free)
    (hu : (∃ v, f v = none) → ∀ K', K.Up K' → QP K' .userCode)
    (h1 : ∀ K' v, K.Up K' → Safe D mx Q QP (k v) K') : Safe D mx Q QP ((Elem.map f i).bind k) K := by
  simp only [Elem.map, Prog.bind_eq, Prog.bind_assoc]
  exact w_map hA hn hf hu (fun K' v hu => h1 K' v hu) (fun h => absurd hV h)

theorem w_elReplace {i : Nat} {v : α} {k : α → Prog α ρ} (hA : K.A i) (hV : K.V i) (hn : ¬ D.nolock) (hf : K.Free) (hd : ¬ D.deref i)
    (h1 : ∀ K' v, K.Up K' → Safe D mx Q QP (k v) K') : Safe D mx Q QP ((Elem.replace i v).bind k) K := by
  simp only [Elem.replace, COpt.replace, Prog.bind_eq, Prog.bind_assoc]
  refine w_lock hA hn (hf.may i) (fun hl hu => ?_) (fun h => absurd hV h)
  simp only [if_true, Prog.bind_eq, Prog.bind_assoc, Prog.pure_eq, Prog.ret_bind]
  refine w_valRead hA (.inr rfl) fun v => ?_
  refine w_valWrite hA (.inr rfl) hd ?_
  refine w_unlock hA (.inr rfl) ?_
  exact h1 _ v (up_release hl hu)

theorem w_elSet {i : Nat} {v : α} {k : Unit → Prog α ρ} (hA : K.A i) (hV : K.V i) (hn : ¬ D.nolock) (hf : K.Free) (hd : ¬ D.deref i)
    (h1 : ∀ K', K.Up K' → Safe D mx Q QP (k ()) K') : Safe D mx Q QP ((Elem.set i v).bind k) K := by
  simp only [Elem.set, COpt.setSome, Prog.bind_eq, Prog.bind_assoc]
  refine w_lock hA hn (hf.may i) (fun hl hu => ?_) (fun h => absurd hV h)
  simp only [if_true, Prog.bind_eq, Prog.bind_assoc, Prog.pure_eq, Prog.ret_bind]
  refine w_valWrite hA (.inr rfl) hd ?_
  refine w_unlock hA (.inr rfl) ?_
  exact h1 _ (up_release hl hu)

theorem w_elUpdate {f : α → α × Bool} {i : Nat} {k : Unit → Prog α ρ} (hA : K.A i) (hV : K.V i) (hn : ¬ D.nolock) (hf : K.Free)
    (hd : ¬ D.deref i) (hu : (∃ v, (f v).2 = false) → ∀ K', K.Up K' → QP K' .userCode)
    (h1 : ∀ K', K.Up K' → Safe D mx Q QP (k ()) K') : Safe D mx Q QP ((Elem.update f i).bind k) K := by
  simp only [Elem.update, COpt.updateIfSome, Prog.bind_eq, Prog.bind_assoc]
  refine w_lock hA hn (hf.may i) (fun hl hu' => ?_) (fun h => absurd hV h)
  simp only [if_true, Prog.bind_eq, Prog.bind_assoc, Prog.pure_eq, Prog.ret_bind]
  refine w_valRead hA (.inr rfl) fun v => ?_
  refine w_valWrite hA (.inr rfl) hd ?_
  refine w_unlock hA (.inr rfl) ?_
  split
  · exact h1 _ (up_release hl hu')
  · next h => exact hu ⟨v, by simpa using h⟩ _ (up_release hl hu')

/-! ## loops -/

section Loops

variable {l : List Nat}

/-- The elements are known to have values, and the call owns nothing. -/
structure Know.Elems (K : Know) (l : List Nat) : Prop where
  free : K.Free
  el : ∀ i ∈ l, K.V i ∧ K.A i

theorem Know.Elems.up {K K' : Know} (h : K.Elems l) (hu : K.Up K') : K'.Elems l :=
  ⟨h.free.up hu, fun i hi => ⟨hu.le.v i (h.el i hi).1, hu.le.a i (h.el i hi).2⟩⟩

theorem Know.Elems.tail {K : Know} {i : Nat} (h : K.Elems (i :: l)) : K.Elems l := ⟨h.free, fun j hj => h.el j (by simp [hj])⟩

theorem Know.Elems.head {K : Know} {i : Nat} (h : K.Elems (i :: l)) : K.V i ∧ K.A i := h.el i (by simp)

theorem w_loopCloned (hn : ¬ D.nolock) : ∀ {l : List Nat} {K : Know} {k : List α → Prog α ρ}, K.Elems l →
    (∀ K' r, K.Up K' → Safe D mx Q QP (k r) K') → Safe D mx Q QP ((Loop.cloned l).bind k) K := by
  intro l
  induction l with
  | nil => intro K k _ hk; exact hk K [] (.refl K)
  | cons i is ih =>
    intro K k hA hk
    simp only [Loop.cloned, Prog.bind_eq, Prog.bind_assoc, Prog.pure_eq, Prog.ret_bind]
    refine w_elCloned hA.head.2 hA.head.1 hn hA.free fun K1 v hu1 => ?_
    exact ih (hA.tail.up hu1) fun K2 r hu2 => hk K2 _ (hu1.trans hu2)

theorem w_loopMap {γ : Type} {f : α → Option γ} (hn : ¬ D.nolock) : ∀ {l : List Nat} {K : Know} {k : List γ → Prog α ρ},
    K.Elems l → ((∃ v, f v = none) → ∀ K', K.Up K' → QP K' .userCode) →
    (∀ K' r, K.Up K' → Safe D mx Q QP (k r) K') → Safe D mx Q QP ((Loop.map f l).bind k) K := by
  intro l
  induction l with
  | nil => intro K k _ _ hk; exact hk K [] (.refl K)
  | cons i is ih =>
    intro K k hA hu hk
    simp only [Loop.map, Prog.bind_eq, Prog.bind_assoc, Prog.pure_eq, Prog.ret_bind]
    refine w_elMap hA.head.2 hA.head.1 hn hA.free hu fun K1 v hu1 => ?_
    exact ih (hA.tail.up hu1) (fun hf K' h => hu hf K' (hu1.trans h)) fun K2 r hu2 => hk K2 _ (hu1.trans hu2)

theorem w_loopFilter {f : α → Option Bool} (hn : ¬ D.nolock) : ∀ {l : List Nat} {K : Know} {k : List Nat → Prog α ρ},
    K.Elems l → ((∃ v, f v = none) → ∀ K', K.Up K' → QP K' .userCode) →
    (∀ K' r, K.Up K' → (∀ i ∈ r, i ∈ l) → Safe D mx Q QP (k r) K') → Safe D mx Q QP ((Loop.filter f l).bind k) K := by
  intro l
  induction l with
  | nil => intro K k _ _ hk; exact hk K [] (.refl K) (by simp)
  | cons i is ih =>
    intro K k hA hu hk
    simp only [Loop.filter, Prog.bind_eq, Prog.bind_assoc, Prog.pure_eq, Prog.ret_bind]
    refine w_elMap hA.head.2 hA.head.1 hn hA.free hu fun K1 v hu1 => ?_
    refine ih (hA.tail.up hu1) (fun hf K' h => hu hf K' (hu1.trans h)) fun K2 r hu2 hr => hk K2 _ (hu1.trans hu2) ?_
    intro j hj
    split at hj
    · rcases List.mem_cons.1 hj with h | h
      · subst h; simp
      · simp [hr j h]
    · simp [hr j hj]

theorem w_loopFold {γ : Type} {f : γ → α → Option γ} (hn : ¬ D.nolock) : ∀ {l : List Nat} {K : Know} {b : γ} {k : γ → Prog α ρ},
    K.Elems l → ((∃ b v, f b v = none) → ∀ K', K.Up K' → QP K' .userCode) →
    (∀ K' r, K.Up K' → Safe D mx Q QP (k r) K') → Safe D mx Q QP ((Loop.fold f b l).bind k) K := by
  intro l
  induction l with
  | nil => intro K b k _ _ hk; exact hk K b (.refl K)
  | cons i is ih =>
    intro K b k hA hu hk
    simp only [Loop.fold, Prog.bind_eq, Prog.bind_assoc, Prog.pure_eq, Prog.ret_bind]
    refine w_elMap hA.head.2 hA.head.1 hn hA.free (fun ⟨v, hv⟩ => hu ⟨b, v, hv⟩) fun K1 v hu1 => ?_
    exact ih (hA.tail.up hu1) (fun hf K' h => hu hf K' (hu1.trans h)) fun K2 r hu2 => hk K2 _ (hu1.trans hu2)

theorem w_loopVisit {γ : Type} {f : γ → α → Option (γ × Bool)} (hn : ¬ D.nolock) :
    ∀ {l : List Nat} {K : Know} {b : γ} {k : γ → Prog α ρ},
    K.Elems l → ((∃ b v, f b v = none) → ∀ K', K.Up K' → QP K' .userCode) →
    (∀ K' r, K.Up K' → Safe D mx Q QP (k r) K') → Safe D mx Q QP ((Loop.visit f b l).bind k) K := by
  intro l
  induction l with
  | nil => intro K b k _ _ hk; exact hk K b (.refl K)
  | cons i is ih =>
    intro K b k hA hu hk
    simp only [Loop.visit, Prog.bind_eq, Prog.bind_assoc, Prog.pure_eq, Prog.ret_bind]
    refine w_elMap hA.head.2 hA.head.1 hn hA.free (fun ⟨v, hv⟩ => hu ⟨b, v, hv⟩) fun K1 v hu1 => ?_
    split
    · exact ih (hA.tail.up hu1) (fun hf K' h => hu hf K' (hu1.trans h)) fun K2 r hu2 => hk K2 _ (hu1.trans hu2)
    · exact hk K1 _ hu1

theorem w_loopReduce {f : α → α → Option α} (hn : ¬ D.nolock) {l : List Nat} {k : Option α → Prog α ρ}
    (hA : K.Elems l) (hu : (∃ u v, f u v = none) → ∀ K', K.Up K' → QP K' .userCode)
    (hk : ∀ K' r, K.Up K' → Safe D mx Q QP (k r) K') : Safe D mx Q QP ((Loop.reduce f l).bind k) K := by
  cases l with
  | nil => exact hk K none (.refl K)
  | cons i is =>
    simp only [Loop.reduce, Prog.bind_eq, Prog.bind_assoc, Prog.pure_eq, Prog.ret_bind]
    refine w_elCloned hA.head.2 hA.head.1 hn hA.free fun K1 v hu1 => ?_
    exact w_loopFold hn (hA.tail.up hu1) (fun hf K' h => hu hf K' (hu1.trans h)) fun K2 r hu2 => hk K2 _ (hu1.trans hu2)

theorem w_loopPosition {veq : α → α → Bool} {v : α} (hn : ¬ D.nolock) :
    ∀ {l : List Nat} {K : Know} {n : Nat} {k : Option Nat → Prog α ρ},
    K.Elems l →
    (∀ K' r, K.Up K' → Safe D mx Q QP (k r) K') → Safe D mx Q QP ((Loop.position veq v n l).bind k) K := by
  intro l
  induction l with
  | nil => intro K n k _ hk; exact hk K none (.refl K)
  | cons i is ih =>
    intro K n k hA hk
    simp only [Loop.position, Elem.eqVal, Prog.bind_eq, Prog.bind_assoc, Prog.pure_eq, Prog.ret_bind]
    refine w_elMap hA.head.2 hA.head.1 hn hA.free (fun ⟨_, h⟩ => by cases h) fun K1 v hu1 => ?_
    split
    · exact hk K1 _ hu1
    · exact ih (hA.tail.up hu1) fun K2 r hu2 => hk K2 _ (hu1.trans hu2)

theorem w_loopFill {v : α} (hn : ¬ D.nolock) : ∀ {l : List Nat} {K : Know} {k : Unit → Prog α ρ},
    (∀ i ∈ l, ¬ D.deref i) → K.Elems l →
    (∀ K', K.Up K' → Safe D mx Q QP (k ()) K') → Safe D mx Q QP ((Loop.fill v l).bind k) K := by
  intro l
  induction l with
  | nil => intro K k _ _ hk; exact hk K (.refl K)
  | cons i is ih =>
    intro K k hd hA hk
    simp only [Loop.fill, Prog.bind_eq, Prog.bind_assoc, Prog.pure_eq, Prog.ret_bind]
    refine w_elSet hA.head.2 hA.head.1 hn hA.free (hd i (by simp)) fun K1 hu1 => ?_
    exact ih (fun j hj => hd j (by simp [hj])) (hA.tail.up hu1) fun K2 hu2 => hk K2 (hu1.trans hu2)

theorem w_loopFillWith {f : Nat → Option α} (hn : ¬ D.nolock) :
    ∀ {l : List Nat} {K : Know} {n : Nat} {k : Unit → Prog α ρ}, (∀ i ∈ l, ¬ D.deref i) → K.Elems l → ((∃ n, f n = none) → ∀ K', K.Up K' → QP K' .userCode) →
    (∀ K', K.Up K' → Safe D mx Q QP (k ()) K') → Safe D mx Q QP ((Loop.fillWith f n l).bind k) K := by
  intro l
  induction l with
  | nil => intro K n k _ _ _ hk; exact hk K (.refl K)
  | cons i is ih =>
    intro K n k hd hA hu hk
    simp only [Loop.fillWith]
    split
    · simp only [Prog.bind_eq, Prog.bind_assoc, Prog.pure_eq, Prog.ret_bind]
      refine w_elSet hA.head.2 hA.head.1 hn hA.free (hd i (by simp)) fun K1 hu1 => ?_
      exact ih (fun j hj => hd j (by simp [hj])) (hA.tail.up hu1) (fun hf K' h => hu hf K' (hu1.trans h)) fun K2 hu2 => hk K2 (hu1.trans hu2)
    · next h => exact hu ⟨_, h⟩ K (.refl K)

theorem w_loopEqList {veq : α → α → Option Bool} (hn : ¬ D.nolock) :
    ∀ {l : List Nat} {vs : List α} {K : Know} {k : Bool → Prog α ρ}, K.Free → (∀ i ∈ l, K.A i) →
    ((∃ u v, veq u v = none) → ∀ K', K.Up K' → QP K' .userCode) →
    (∀ K' r, K.Up K' → Safe D mx Q QP (k r) K') → Safe D mx Q QP ((Loop.eqList veq l vs).bind k) K := by
  intro l
  induction l with
  | nil =>
    intro vs K k _ _ _ hk
    cases vs with
    | nil => exact hk K true (.refl K)
    | cons v vs => exact hk K false (.refl K)
  | cons i is ih =>
    intro vs K k hf hA hu hk
    cases vs with
    | nil => exact hk K false (.refl K)
    | cons v vs =>
      simp only [Loop.eqList, Prog.bind_eq, Prog.bind_assoc, Prog.pure_eq, Prog.ret_bind]
      refine w_isSomeAnd (hA i (by simp)) hn hf (fun ⟨u, h⟩ => hu ⟨u, v, h⟩) fun K1 v hu1 => ?_
      split
      · exact ih (hf.up hu1) (fun j hj => hu1.le.a j (hA j (by simp [hj]))) (fun hf K' h => hu hf K' (hu1.trans h)) fun K2 r hu2 => hk K2 _ (hu1.trans hu2)
      · exact hk K1 _ hu1

theorem w_loopDebugRest {sh : α → String} (hn : ¬ D.nolock) : ∀ {l : List Nat} {K : Know} {s : String} {k : String → Prog α ρ},
    K.Elems l →
    (∀ K' r, K.Up K' → Safe D mx Q QP (k r) K') → Safe D mx Q QP ((Loop.debugRest sh s l).bind k) K := by
  intro l
  induction l with
  | nil => intro K s k _ hk; exact hk K s (.refl K)
  | cons i is ih =>
    intro K s k hA hk
    simp only [Loop.debugRest, Prog.bind_eq, Prog.bind_assoc, Prog.pure_eq, Prog.ret_bind]
    refine w_elMap hA.head.2 hA.head.1 hn hA.free (fun ⟨_, h⟩ => by cases h) fun K1 v hu1 => ?_
    exact ih (hA.tail.up hu1) fun K2 r hu2 => hk K2 _ (hu1.trans hu2)

theorem w_loopDebug {sh : α → String} (hn : ¬ D.nolock) {l : List Nat} {k : String → Prog α ρ}
    (hA : K.Elems l)
    (hk : ∀ K' r, K.Up K' → Safe D mx Q QP (k r) K') : Safe D mx Q QP ((Loop.debug sh l).bind k) K := by
  cases l with
  | nil => exact hk K _ (.refl K)
  | cons i is =>
    simp only [Loop.debug, Prog.bind_eq, Prog.bind_assoc, Prog.pure_eq, Prog.ret_bind]
    refine w_elMap hA.head.2 hA.head.1 hn hA.free (fun ⟨_, h⟩ => by cases h) fun K1 v hu1 => ?_
    exact w_loopDebugRest hn (hA.tail.up hu1) fun K2 r hu2 => hk K2 _ (hu1.trans hu2)

end Loops

end Verif.Weak
