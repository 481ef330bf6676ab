import Verif.Model.Basic

/-!
# Growth policies of the pinned vectors used by the crate

Shows that the abstract contract `Policy` is met by the three storage kinds of `src/new.rs`.
-/

namespace Verif

/-- Repeatedly append fragments until `n` elements fit (dependency `orx-split-vec`,
`grow_to_and_fill_with`: `while new_capacity > current_capacity { push_fragment }`).
`frag c` is the capacity of the next fragment when the current total capacity is `c`. -/
def growLoop (frag : Nat → Nat) (hpos : ∀ c, 0 < frag c) (c n : Nat) : Nat :=
  if c < n then growLoop frag hpos (c + frag c) n else c
termination_by n - c
decreasing_by have := hpos c; omega

theorem growLoop_ok (frag : Nat → Nat) (hpos : ∀ c, 0 < frag c) (B : Nat → Prop)
    (hstep : ∀ c m, B c → B m → c < m → B (c + frag c) ∧ c + frag c ≤ m) (m n : Nat) (hm : B m)
    (hn : n ≤ m) : ∀ k c, n - c ≤ k → B c → c ≤ m →
      n ≤ growLoop frag hpos c n ∧ growLoop frag hpos c n ≤ m ∧ B (growLoop frag hpos c n) := by
  intro k
  induction k with
  | zero =>
    intro c hk hB hcm
    rw [growLoop]
    have : ¬ c < n := by omega
    simp [this]
    exact ⟨by omega, hcm, hB⟩
  | succ k ih =>
    intro c hk hB hcm
    rw [growLoop]
    by_cases h : c < n
    · simp only [h, if_true]
      have hs := hstep c m hB hm (by omega)
      exact ih _ (by have := hpos c; omega) hs.1 hs.2
    · simp only [h, if_false]
      exact ⟨by omega, hcm, hB⟩

/-- `FixedVec` (`src/new.rs:45-58`): never grows; `reserve_maximum_capacity` is refused
(`src/exclusive.rs:21-23`). -/
def Policy.fixed : Policy where
  grow c _ := c
  reserve m _ := m
  good c m := c = m
  good_le := by intro c m h; omega
  grow_ok := by intro c m n h h1 h2; omega
  reserve_ok := by intro c m n h; exact ⟨Nat.le_refl _, h⟩

/-- `SplitVec<_, Linear>` with fragments of `2^e` elements (`src/new.rs:25-43`). -/
def Policy.linear (e : Nat) : Policy where
  grow c n := growLoop (fun _ => 2 ^ e) (fun _ => Nat.two_pow_pos e) c n
  reserve m n := growLoop (fun _ => 2 ^ e) (fun _ => Nat.two_pow_pos e) m n
  good c m := c ≤ m ∧ 2 ^ e ∣ c ∧ 2 ^ e ∣ m
  good_le := by intro c m h; exact h.1
  grow_ok := by
    intro c m n h h1 h2
    have := growLoop_ok (fun _ => 2 ^ e) (fun _ => Nat.two_pow_pos e) (fun c => 2 ^ e ∣ c)
      (by
        intro c m hc hm hlt
        obtain ⟨x, rfl⟩ := hc
        obtain ⟨y, rfl⟩ := hm
        refine ⟨⟨x + 1, by simp [Nat.mul_add]⟩, ?_⟩
        have hxy : x < y := Nat.lt_of_mul_lt_mul_left hlt
        calc 2 ^ e * x + 2 ^ e = 2 ^ e * (x + 1) := by simp [Nat.mul_add]
          _ ≤ 2 ^ e * y := Nat.mul_le_mul_left _ hxy) m n h.2.2 h2 (n - c) c (Nat.le_refl _) h.2.1 h.1
    exact ⟨this.1, this.2.1, this.2.1, this.2.2, h.2.2⟩
  reserve_ok := by
    intro c m n h
    -- the loop only ever adds whole fragments
    have key : ∀ k m, n - m ≤ k → 2 ^ e ∣ m →
        m ≤ growLoop (fun _ => 2 ^ e) (fun _ => Nat.two_pow_pos e) m n ∧
        2 ^ e ∣ growLoop (fun _ => 2 ^ e) (fun _ => Nat.two_pow_pos e) m n := by
      intro k
      induction k with
      | zero =>
        intro m hk hd
        rw [growLoop]; have : ¬ m < n := by omega
        simp [this, hd]
      | succ k ih =>
        intro m hk hd
        rw [growLoop]
        by_cases hlt : m < n
        · simp only [hlt, if_true]
          have hp := Nat.two_pow_pos e
          have := ih (m + 2 ^ e) (by omega) ((Nat.dvd_add_right hd).2 (Nat.dvd_refl _))
          exact ⟨by omega, this.2⟩
        · simp only [hlt, if_false]; exact ⟨Nat.le_refl _, hd⟩
    have := key (n - m) m (Nat.le_refl _) h.2.2
    exact ⟨this.1, by have := h.1; omega, h.2.1, this.2⟩

/-- Total capacity of `k` doubling fragments: 4 + 8 + … (`SplitVec<_, Doubling>`). -/
def doublingCap (k : Nat) : Nat := 4 * (2 ^ k - 1)

theorem doublingCap_succ (k : Nat) : doublingCap (k + 1) = doublingCap k + (doublingCap k + 4) := by
  unfold doublingCap
  have := Nat.two_pow_pos k
  rw [Nat.pow_succ]; omega

theorem doublingCap_lt {a b : Nat} (h : doublingCap a < doublingCap b) : a < b := by
  rcases Nat.lt_or_ge a b with h' | h'
  · exact h'
  · exfalso
    have : 2 ^ b ≤ 2 ^ a := Nat.pow_le_pow_right (by omega) h'
    unfold doublingCap at h; omega

theorem doublingCap_mono {a b : Nat} (h : a ≤ b) : doublingCap a ≤ doublingCap b := by
  have : 2 ^ a ≤ 2 ^ b := Nat.pow_le_pow_right (by omega) h
  unfold doublingCap; omega

/-- `SplitVec<_, Doubling>` (`src/new.rs:13-23`): fragments of 4, 8, 16, … elements; the next fragment of a
vector with total capacity `c` has `c + 4` elements. -/
def Policy.doubling : Policy where
  grow c n := growLoop (fun c => c + 4) (fun _ => by omega) c n
  reserve m n := growLoop (fun c => c + 4) (fun _ => by omega) m n
  good c m := c ≤ m ∧ (∃ a, c = doublingCap a) ∧ (∃ b, m = doublingCap b)
  good_le := by intro c m h; exact h.1
  grow_ok := by
    intro c m n h h1 h2
    have := growLoop_ok (fun c => c + 4) (fun _ => by omega) (fun c => ∃ a, c = doublingCap a)
      (by
        rintro c m ⟨a, rfl⟩ ⟨b, rfl⟩ hlt
        refine ⟨⟨a + 1, (doublingCap_succ a).symm⟩, ?_⟩
        have := doublingCap_mono (doublingCap_lt hlt : a + 1 ≤ b)
        rw [doublingCap_succ] at this; exact this) m n h.2.2 h2 (n - c) c (Nat.le_refl _) h.2.1 h.1
    exact ⟨this.1, this.2.1, this.2.1, this.2.2, h.2.2⟩
  reserve_ok := by
    intro c m n h
    have key : ∀ k m, n - m ≤ k → (∃ a, m = doublingCap a) →
        m ≤ growLoop (fun c => c + 4) (fun _ => by omega) m n ∧
        ∃ a, growLoop (fun c => c + 4) (fun _ => by omega) m n = doublingCap a := by
      intro k
      induction k with
      | zero =>
        intro m hk hd
        rw [growLoop]; have : ¬ m < n := by omega
        simp [this, hd]
      | succ k ih =>
        intro m hk hd
        rw [growLoop]
        by_cases hlt : m < n
        · simp only [hlt, if_true]
          obtain ⟨a, rfl⟩ := hd
          have := ih (doublingCap a + (doublingCap a + 4)) (by omega) ⟨a + 1, (doublingCap_succ a).symm⟩
          exact ⟨by omega, this.2⟩
        · simp only [hlt, if_false]; exact ⟨Nat.le_refl _, hd⟩
    have := key (n - m) m (Nat.le_refl _) h.2.2
    exact ⟨this.1, by have := h.1; omega, h.2.1, this.2⟩

end Verif
