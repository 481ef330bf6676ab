import Verif.Proof.Solo

/-!
# API functions running alone

Helper file (no property statements): every API function, run alone on a memory that represents a list, does what the
operation on the list does.
-/

namespace Verif

variable {α β ρ ρ' : Type}

open Prog

/-- Run alone on `m`, the program ends with `x` and the memory then represents `l`. -/
def Ends (p : Prog α ρ) (m : Mem α) (l : List α) (x : Except PanicKind ρ) : Prop :=
  ∃ m', p.solo m = (.done x, m') ∧ m'.Rep l ∧ m'.maxCap = m.maxCap

theorem Ends.map {p : Prog α ρ} {m : Mem α} {l : List α} {x : Except PanicKind ρ} (h : Ends p m l x) (f : ρ → ρ') :
    Ends (f <$> p) m l (x.map f) := by
  obtain ⟨m', h1, h2, h3⟩ := h
  refine ⟨m', ?_, h2, h3⟩
  cases x with
  | ok y => rw [map_eq, solo_bind h1]; rfl
  | error k => rw [map_eq, solo_bind_panic h1]; rfl

theorem map_closure {γ : Type} (o : Option γ) (f : ρ → ρ') (g : γ → ρ) :
    (closure o g).map f = closure o (f ∘ g) := by cases o <;> rfl

theorem map_ite {c : Prop} [Decidable c] (x : ρ) (k : PanicKind) (f : ρ → ρ') :
    (if c then Except.ok x else Except.error k).map f = if c then .ok (f x) else .error k := by
  split <;> rfl

section

variable {m : Mem α} {l : List α} {r : Nat}

theorem Ends.marked (h : m.Rep l) {p : Prog α ρ} {x : Except PanicKind ρ}
    (hp : p.solo m = (.done x, m.mark l.length)) : Ends p m l x :=
  ⟨_, hp, h.mark (Nat.le_refl _), rfl⟩

theorem Ends.same (h : m.Rep l) {p : Prog α ρ} {x : Except PanicKind ρ} (hp : p.solo m = (.done x, m)) : Ends p m l x :=
  ⟨_, hp, h, rfl⟩

theorem mem_stStore (m : Mem α) {i : Nat} (h : i < m.cap) (s : CState) (o : MOrd) :
    (Act.stStore i s o).exec m = some ({ m with st := upd m.st i s }, ()) := by
  simp only [Act.exec]; rw [if_pos h]

theorem mem_growPublish (m : Mem α) (h : m.growing = true) (o : MOrd) :
    (Act.growPublish o).exec m = some ({ m with growing := false, cap := m.alloc }, ()) := by
  simp only [Act.exec]; rw [if_pos h]

theorem mem_growAlloc (m : Mem α) (h : m.growing = false) (n : Nat) :
    (Act.growAlloc n).exec m = some ({ m with
          growing := true
          alloc := m.pol.grow m.cap n
          st := fun i => if m.alloc ≤ i ∧ i < m.pol.grow m.cap n then .NONE else m.st i
          val := fun i => if m.alloc ≤ i ∧ i < m.pol.grow m.cap n then none else m.val i }, ()) := by
  simp only [Act.exec]; rw [h]; rfl

/-! ## Growth -/

theorem solo_growTo (h : m.Half l r) {n : Nat} (hn : n ≤ m.maxCap) :
    ∃ m', (Col.growTo n : Prog α Unit).solo m = (.done (.ok ()), m') ∧ m'.Half l r ∧ n ≤ m'.cap ∧
      m'.maxCap = m.maxCap := by
  unfold Col.growTo
  rw [bind_eq, solo_bind (solo_act (m' := m) (b := m.cap) rfl)]
  by_cases hc : n ≤ m.cap
  · simp only [if_pos hc]
    exact ⟨m, rfl, h, hc, rfl⟩
  · simp only [if_neg hc]
    rw [bind_eq, solo_bind (solo_act (m' := m) (b := m.maxCap) rfl)]
    simp only [if_pos hn]
    obtain ⟨g1, g2, g3⟩ := m.pol.grow_ok h.good (by omega) hn
    rw [bind_eq, solo_bind (solo_act (mem_growAlloc m h.growing n))]
    refine ⟨_, solo_act (mem_growPublish _ rfl _), ?_, ?_, ?_⟩
    rotate_left
    · exact g1
    · rfl
    refine ⟨h.reserved, h.written, fun i => ?_, fun i => ?_, by have := h.cap; simp only; omega, rfl, rfl, g3⟩
    · simp only
      split
      · next hi => rw [if_neg (by have := h.cap; have := h.alloc; omega)]
      · exact h.st i
    · simp only
      split
      · next hi => rw [List.getElem?_eq_none (by have := h.cap; have := h.alloc; omega)]
      · exact h.val i

theorem solo_assert (h : i < m.maxCap) : (Col.assertHasCapacityFor i : Prog α Unit).solo m = (.done (.ok ()), m) := by
  unfold Col.assertHasCapacityFor
  rw [bind_eq, solo_bind (solo_act (m' := m) (b := m.maxCap) rfl)]
  simp only [if_pos h]
  rfl

theorem solo_singleItem (h : m.Half l r) (hm : l.length + 1 ≤ m.maxCap) :
    ∃ m', (Col.singleItem l.length : Prog α Unit).solo m = (.done (.ok ()), m') ∧ m'.Half l r ∧ l.length + 1 ≤ m'.cap ∧
      m'.maxCap = m.maxCap := by
  unfold Col.singleItem
  have hc := h.cap
  rw [bind_eq, solo_bind (solo_assert (by omega))]
  by_cases hlt : l.length < m.cap
  · have hw : writePermit m.cap l.length = .JustWrite := by
      simp [writePermit, Nat.compare_eq_lt.2 hlt]
    rw [bind_eq, solo_bind (solo_spin (m' := m) (b := m.cap) rfl (by rw [hw]; rfl))]
    simp only [hw]
    exact ⟨m, rfl, h, hlt, rfl⟩
  · have he : l.length = m.cap := by omega
    have hw : writePermit m.cap l.length = .GrowThenWrite := by
      simp [writePermit, Nat.compare_eq_eq.2 he]
    rw [bind_eq, solo_bind (solo_spin (m' := m) (b := m.cap) rfl (by rw [hw]; rfl))]
    simp only [hw]
    exact solo_growTo h hm

theorem solo_nItems (h : m.Half l r) {n : Nat} (hm : l.length + n ≤ m.maxCap) :
    ∃ m', (Col.nItems l.length n : Prog α Unit).solo m = (.done (.ok ()), m') ∧ m'.Half l r ∧ l.length + n ≤ m'.cap ∧
      m'.maxCap = m.maxCap := by
  unfold Col.nItems
  have hc := h.cap
  by_cases hn : n = 0
  · rw [if_pos hn]
    exact ⟨m, rfl, h, by omega, rfl⟩
  · rw [if_neg hn]
    rw [bind_eq, solo_bind (solo_assert (by omega))]
    by_cases hlt : l.length + n - 1 < m.cap
    · have hw : writePermitN m.cap l.length n = .JustWrite := by
        simp [writePermitN, Nat.compare_eq_lt.2 hlt]
      rw [bind_eq, solo_bind (solo_spin (m' := m) (b := m.cap) rfl (by rw [hw]; rfl))]
      simp only [hw]
      exact ⟨m, rfl, h, by omega, rfl⟩
    · have hw : writePermitN m.cap l.length n = .GrowThenWrite := by
        have h1 : compare l.length m.cap ≠ .gt := by rw [Ne, Nat.compare_eq_gt]; omega
        have h2 : compare (l.length + n - 1) m.cap ≠ .lt := by rw [Ne, Nat.compare_eq_lt]; omega
        unfold writePermitN
        rcases h3 : compare l.length m.cap <;> rcases h4 : compare (l.length + n - 1) m.cap <;> simp_all
      rw [bind_eq, solo_bind (solo_spin (m' := m) (b := m.cap) rfl (by rw [hw]; rfl))]
      simp only [hw]
      exact solo_growTo h hm

theorem solo_init (h : m.Half l r) (hc : l.length < m.cap) (v : α) :
    ∃ m', (COpt.init l.length v).solo m = (.done (.ok ()), m') ∧ m'.Half (l ++ [v]) r ∧ m'.maxCap = m.maxCap ∧
      m'.cap = m.cap := by
  unfold COpt.init
  refine ⟨{ m with val := upd m.val l.length (some v), st := upd m.st l.length .SOME }, ?_, ?_, rfl, rfl⟩
  · rw [bind_eq, solo_bind (solo_act (b := ()) (by simp only [Act.exec]; rw [if_pos hc]))]
    exact solo_act (by simp only [Act.exec]; rw [if_pos hc])
  · refine ⟨h.reserved, by have := h.written; simp; omega, fun i => ?_, fun i => ?_, by simp; omega, h.alloc, h.growing,
      h.good⟩
    · simp only [upd_apply, List.length_append, List.length_cons, List.length_nil]
      split
      · next hi => rw [if_pos (by omega)]
      · next hi =>
        rw [h.st]
        by_cases hi2 : i < l.length
        · rw [if_pos hi2, if_pos (by omega)]
        · rw [if_neg hi2, if_neg (by omega)]
    · simp only [upd_apply]
      split
      · next hi => subst hi; simp
      · next hi =>
        rw [h.val]
        by_cases hi2 : i < l.length
        · rw [List.getElem?_append_left hi2]
        · rw [List.getElem?_eq_none (by omega), List.getElem?_eq_none (by simp; omega)]

theorem solo_writeItems : ∀ {n : Nat} {items : List (Option α)} {m : Mem α} {l : List α}, m.Half l r →
    l.length + n ≤ m.cap → Yields items n →
    ∃ m', (CVec.writeItems l.length n items).solo m = (.done (.ok ()), m') ∧
      m'.Half (l ++ itemsOf (items.take n)) r ∧ m'.maxCap = m.maxCap := by
  intro n
  induction n with
  | zero => intro items m l h _ _; exact ⟨m, by simp [CVec.writeItems, Prog.solo], by simpa [itemsOf] using h, rfl⟩
  | succ n ih =>
    intro items m l h hc hy
    match items with
    | [] => exact absurd hy.1 (by simp)
    | none :: _ => exact absurd (hy.2 none (by simp)) (by simp)
    | some v :: vs =>
      obtain ⟨m1, h1, h2, h3, h4⟩ := solo_init h (by omega) v
      have hlen : l.length + 1 = (l ++ [v]).length := by simp
      obtain ⟨m2, h5, h6, h7⟩ := ih (items := vs) h2 (by rw [← hlen, h4]; omega)
        ⟨by have := hy.1; simp at this; exact this, fun o ho => hy.2 o (by simp [ho])⟩
      refine ⟨m2, ?_, ?_, h7.trans h3⟩
      · unfold CVec.writeItems
        rw [bind_eq, solo_bind h1, hlen]
        exact h5
      · simpa [itemsOf] using h6

theorem itemsOf_length {items : List (Option α)} {n : Nat} (hy : Yields items n) : (itemsOf (items.take n)).length = n := by
  have : ∀ xs : List (Option α), (∀ o ∈ xs, o.isSome) → (itemsOf xs).length = xs.length := by
    intro xs
    induction xs with
    | nil => intro _; rfl
    | cons o xs ih =>
      intro h
      obtain ⟨v, rfl⟩ := Option.isSome_iff_exists.1 (h o (by simp))
      simpa [itemsOf] using ih fun o ho => h o (by simp [ho])
  rw [this _ hy.2, List.length_take]
  have := hy.1
  omega

theorem Mem.Rep.reserve (h : m.Rep l) (n : Nat) :
    ({ m with reserved := m.reserved + n } : Mem α).Half l (l.length + n) :=
  ⟨by simp only [h.reserved], h.written, h.st, h.val, h.cap, h.alloc, h.growing, h.good⟩

theorem ends_push (h : m.Rep l) (hm : l.length + 1 ≤ m.maxCap) (v : α) :
    Ends (CVec.push v) m (l ++ [v]) (.ok l.length) := by
  obtain ⟨m1, h1, h2, h3, h4⟩ := solo_singleItem (h.reserve 1) hm
  obtain ⟨m2, h5, h6, h7, _⟩ := solo_init h2 h3 v
  refine ⟨m2, ?_, by simpa [Mem.Rep] using h6, h7.trans h4⟩
  unfold CVec.push
  rw [bind_eq, solo_bind (solo_act (b := l.length) (m' := { m with reserved := m.reserved + 1 }) (by rw [← h.reserved]; rfl))]
  rw [bind_eq, solo_bind h1, bind_eq, solo_bind h5]
  rfl

theorem ends_pushForIdx (h : m.Rep l) (hm : l.length + 1 ≤ m.maxCap) {f : Nat → Option α} {v : α} (hf : f l.length = some v) :
    Ends (CVec.pushForIdx f) m (l ++ [v]) (.ok l.length) := by
  obtain ⟨m1, h1, h2, h3, h4⟩ := solo_singleItem (h.reserve 1) hm
  obtain ⟨m2, h5, h6, h7, _⟩ := solo_init h2 h3 v
  refine ⟨m2, ?_, by simpa [Mem.Rep] using h6, h7.trans h4⟩
  unfold CVec.pushForIdx
  rw [bind_eq, solo_bind (solo_act (b := l.length) (m' := { m with reserved := m.reserved + 1 }) (by rw [← h.reserved]; rfl))]
  simp only [hf]
  rw [bind_eq, solo_bind h1, bind_eq, solo_bind h5]
  rfl

theorem ends_extendN (h : m.Rep l) {items : List (Option α)} {n : Nat} (hm : l.length + n ≤ m.maxCap) (hy : Yields items n) :
    Ends (CVec.extendN items n) m (l ++ itemsOf (items.take n)) (.ok l.length) := by
  obtain ⟨m1, h1, h2, h3, h4⟩ := solo_nItems (h.reserve n) hm
  obtain ⟨m2, h5, h6, h7⟩ := solo_writeItems h2 h3 hy
  refine ⟨m2, ?_, by simpa [Mem.Rep, itemsOf_length hy] using h6, h7.trans h4⟩
  unfold CVec.extendN
  rw [bind_eq, solo_bind (solo_act (b := l.length) (m' := { m with reserved := m.reserved + n }) (by rw [← h.reserved]; rfl))]
  rw [bind_eq, solo_bind h1, bind_eq, solo_bind h5]
  rfl

theorem ends_extendForIdx (h : m.Rep l) {f : Nat → Option (Iter α)} {n : Nat} (hm : l.length + n ≤ m.maxCap) {it : Iter α}
    (hf : f l.length = some it) (hi : it.hint = n) (hy : Yields it.items n) :
    Ends (CVec.extendForIdx f n) m (l ++ itemsOf (it.items.take n)) (.ok l.length) := by
  obtain ⟨m1, h1, h2, h3, h4⟩ := solo_nItems (h.reserve n) hm
  obtain ⟨m2, h5, h6, h7⟩ := solo_writeItems h2 h3 hy
  refine ⟨m2, ?_, by simpa [Mem.Rep, itemsOf_length hy] using h6, h7.trans h4⟩
  unfold CVec.extendForIdx
  rw [bind_eq, solo_bind (solo_act (b := l.length) (m' := { m with reserved := m.reserved + n }) (by rw [← h.reserved]; rfl))]
  rw [bind_eq, solo_bind h1]
  simp only [hf, if_pos hi]
  rw [bind_eq, solo_bind h5]
  rfl

/-! ## Filling -/

theorem loop_fill_eq (v : α) : ∀ (is : List Nat) (k : Nat), Loop.fill v is = Loop.fillWith (fun _ => some v) k is := by
  intro is
  induction is with
  | nil => intro k; rfl
  | cons i is ih =>
    intro k
    simp only [Loop.fill, Loop.fillWith]
    rw [ih (k + 1)]

theorem filled_length (f : Nat → Option α) : ∀ (xs : List α) (k : Nat), (filled f k xs).length = xs.length := by
  intro xs
  induction xs with
  | nil => intro k; rfl
  | cons x xs ih => intro k; unfold filled; split <;> simp [ih]

theorem filled_const (v : α) : ∀ (xs : List α) (k : Nat), filled (fun _ => some v) k xs = List.replicate xs.length v := by
  intro xs
  induction xs with
  | nil => intro k; rfl
  | cons x xs ih => intro k; simp [filled, ih, List.replicate_succ]

theorem ends_fillWith (f : Nat → Option α) : ∀ {k a j : Nat} {m : Mem α} {l : List α}, m.Rep l → a + k ≤ l.length →
    Ends (Loop.fillWith f j (List.range' a k)) m (l.take a ++ filled f j ((l.drop a).take k) ++ l.drop (a + k))
      (if ∀ i, i < k → (f (j + i)).isSome then .ok () else .error .userCode) := by
  intro k
  induction k with
  | zero =>
    intro a j m l h hk
    refine .same (by simpa [filled] using h) ?_
    simp [Loop.fillWith, Prog.solo]
  | succ k ih =>
    intro a j m l h hk
    have ha : a < l.length := by omega
    rw [List.range'_succ, List.drop_eq_getElem_cons ha, List.take_succ_cons]
    simp only [Loop.fillWith, filled]
    rcases hf : f j with _ | v
    · refine .same ?_ ?_
      · have : l.take a ++ l[a] :: List.take k (List.drop (a + 1) l) ++ l.drop (a + (k + 1)) = l := by
          have h2 := List.take_append_drop k (l.drop (a + 1))
          rw [List.drop_drop] at h2
          rw [show a + (k + 1) = a + 1 + k by omega, List.append_assoc, List.cons_append, h2, ← List.drop_eq_getElem_cons ha,
            List.take_append_drop]
        rw [this]; exact h
      · rw [if_neg]
        · rfl
        · intro hh
          have := hh 0 (by omega)
          rw [Nat.add_zero, hf] at this
          cases this
    · have h1 := solo_set (h.at (List.getElem?_eq_getElem ha)) v
      have hr : (m.put a v).Rep (l.set a v) := by simpa [Mem.Rep] using h.put ha v
      obtain ⟨m', h2, h3, h4⟩ := ih (a := a + 1) (j := j + 1) hr (by simp; omega)
      refine ⟨m', ?_, ?_, h4⟩
      · simp only
        rw [bind_eq, solo_bind h1, h2]
        congr 2
        refine if_congr ⟨fun hh i hi => ?_, fun hh i hi => ?_⟩ rfl rfl
        · match i with
          | 0 => simp [hf]
          | i + 1 => rw [show j + (i + 1) = j + 1 + i by omega]; exact hh i (by omega)
        · rw [show j + 1 + i = j + (i + 1) by omega]; exact hh (i + 1) (by omega)
      · have e1 : (l.set a v).take (a + 1) = l.take a ++ [v] := by
          rw [List.take_add_one, List.getElem?_set_self ha, List.take_set_of_le (Nat.le_refl _)]; rfl
        have e2 : (l.set a v).drop (a + 1) = l.drop (a + 1) := by
          rw [List.drop_set_of_lt (by omega)]
        have e3 : (l.set a v).drop (a + 1 + k) = l.drop (a + (k + 1)) := by
          rw [List.drop_set_of_lt (by omega), show a + 1 + k = a + (k + 1) by omega]
        rw [e1, e2, e3] at h3
        simpa using h3

/-! ## Swapping -/

theorem solo_len_settled (hw : m.written = m.reserved) (hc : m.reserved ≤ m.cap) :
    (CVec.len : Prog α Nat).solo m = (.done (.ok m.reserved), m) := by
  unfold CVec.len
  rw [bind_eq, solo_bind (solo_act (m' := m) (b := m.written) rfl), bind_eq,
    solo_bind (solo_act (m' := m) (b := m.cap) rfl), bind_eq, solo_bind (solo_act (m' := m) (b := m.reserved) rfl)]
  simp only [if_pos hc, hw, Nat.sub_self, CVec.settled]
  rw [bind_eq, pure_eq, ret_bind, bind_eq, solo_bind (solo_act (m' := m) (b := ())
      (by simp only [Act.exec]; rw [show max m.written m.reserved = m.written by omega]))]
  rfl

theorem solo_mutHandle (mode : MutMode) (hw : m.written = m.reserved) (hc : m.reserved ≤ m.cap) {i : Nat} {v : α}
    (hi : i < m.reserved) (hv : m.Val i v) :
    (CVec.mutHandle mode i : Prog α (Option Nat)).solo m = (.done (.ok (some i)), m.lock i) := by
  unfold CVec.mutHandle
  rw [bind_eq, solo_bind (solo_len_settled hw hc)]
  have h1 := solo_colGet (m := m) i
  rw [if_pos hv.cap] at h1
  simp only [if_pos hi]
  rw [bind_eq, solo_bind h1]
  cases mode with
  | spinning => simp only; rw [bind_eq, solo_bind (solo_lock hv)]; rfl
  | tryOnce => simp only; rw [bind_eq, solo_bind (solo_tryLock hv)]; rfl

theorem solo_mutHandle_none (mode : MutMode) (hw : m.written = m.reserved) (hc : m.reserved ≤ m.cap) {i : Nat}
    (hi : ¬ i < m.reserved) : (CVec.mutHandle mode i : Prog α (Option Nat)).solo m = (.done (.ok none), m) := by
  unfold CVec.mutHandle
  rw [bind_eq, solo_bind (solo_len_settled hw hc)]
  simp only [if_neg hi]
  rfl

/-- The first query of the length only records it. -/
theorem solo_mutHandle_mark (mode : MutMode) (h : m.Rep l) (i : Nat) :
    (CVec.mutHandle mode i : Prog α (Option Nat)).solo m = (CVec.mutHandle mode i : Prog α (Option Nat)).solo (m.mark l.length) := by
  unfold CVec.mutHandle
  rw [bind_eq, solo_bind (solo_len h)]
  rw [bind_eq, solo_bind (solo_len (h.mark (Nat.le_refl _)))]
  rw [mark_mark]

theorem swapAt_eq {l : List α} {i j : Nat} {a b : α} (hi : l[i]? = some a) (hj : l[j]? = some b) :
    swapAt l i j = (l.set i b).set j a := by
  simp [swapAt, hi, hj]

theorem swapAt_none {l : List α} {i j : Nat} (h : ¬ (i < l.length ∧ j < l.length)) : swapAt l i j = l := by
  unfold swapAt
  by_cases hi : i < l.length
  · rw [List.getElem?_eq_none (show l.length ≤ j by omega)]
    split <;> simp_all
  · rw [List.getElem?_eq_none (show l.length ≤ i by omega)]

theorem solo_bind_eq {p : Prog α ρ} {m m' : Mem α} (h : p.solo m = p.solo m') (x : ρ) {m'' : Mem α}
    (hx : p.solo m' = (.done (.ok x), m'')) (f : ρ → Prog α ρ') : (p.bind f).solo m = (f x).solo m'' :=
  solo_bind (h.trans hx) f

theorem ends_swap (mode : MutMode) (h : m.Rep l) {i j : Nat} (hne : i < l.length → i ≠ j) :
    Ends (CVec.swap mode i j) m (swapAt l i j) (.ok (decide (i < l.length ∧ j < l.length))) := by
  have hM : (m.mark l.length).Rep l := h.mark (Nat.le_refl _)
  have hw : (m.mark l.length).written = (m.mark l.length).reserved := h.reserved.symm
  have hr : (m.mark l.length).reserved = l.length := h.reserved
  have hc : (m.mark l.length).reserved ≤ (m.mark l.length).cap := by rw [hr]; exact h.cap
  have hmc : (m.mark l.length).maxCap = m.maxCap := rfl
  generalize hMM : m.mark l.length = M at *
  unfold CVec.swap
  by_cases hi : i < l.length
  · have hvi := hM.at (List.getElem?_eq_getElem hi)
    rw [Ends, bind_eq]
    have h0 := solo_mutHandle_mark mode h i
    rw [hMM] at h0
    rw [solo_bind_eq h0 _ (solo_mutHandle mode hw hc (by omega) hvi)]
    by_cases hj : j < l.length
    · have hij := hne hi
      have hvj := hM.at (List.getElem?_eq_getElem hj)
      have hvj' : (M.lock i).Val j l[j] :=
        ⟨hvj.cap, by simp only [Mem.lock]; rw [upd_other _ _ (fun h => hij h.symm)]; exact hvj.st, hvj.val⟩
      rw [bind_eq, solo_bind (solo_mutHandle mode (m := M.lock i) hw hc (by show j < M.reserved; omega) hvj')]
      simp only
      refine ⟨(M.put i l[j]).put j l[i], ?_, ?_, hmc⟩
      · have hci : i < M.cap := hvi.cap
        have hcj : j < M.cap := hvj.cap
        have e1 : M.val i = some l[i] := hvi.val
        have e2 : M.val j = some l[j] := hvj.val
        have s1 : (Act.valSwap i j : Act α).exec ((M.lock i).lock j) =
            some ({ (M.lock i).lock j with val := upd (upd M.val i (some l[j])) j (some l[i]) }, ()) := by
          simp [Act.exec, Mem.lock, hci, hcj, e1, e2]
        rw [bind_eq, solo_bind (solo_act s1), bind_eq, COpt.unlock,
          solo_bind (solo_act (mem_stStore _ (by exact hcj) _ _)), bind_eq, COpt.unlock,
          solo_bind (solo_act (mem_stStore _ (by exact hci) _ _))]
        simp only [pure_eq, Prog.solo, hi, hj, and_self, decide_true, Prod.mk.injEq, true_and]
        simp only [Mem.lock, Mem.put, Mem.mk.injEq, true_and, and_true]
        funext p
        simp only [upd_apply]
        split
        · next hp => subst hp; exact hvi.st.symm
        · split
          · next hp => subst hp; exact hvj.st.symm
          · rfl
      · rw [swapAt_eq (List.getElem?_eq_getElem hi) (List.getElem?_eq_getElem hj)]
        have := (hM.put hi l[j]).put (i := j) (by simpa using hj) l[i]
        simpa [Mem.Rep] using this
    · rw [bind_eq, solo_bind (solo_mutHandle_none mode (m := M.lock i) hw hc (by show ¬ j < M.reserved; omega))]
      simp only
      refine ⟨M, ?_, ?_, hmc⟩
      · rw [bind_eq, COpt.unlock, solo_bind (solo_act hvi.exec_unlock)]
        simp [Prog.solo, hj]
      · rw [swapAt_none (fun h => hj h.2)]; exact hM
  · rw [Ends, bind_eq]
    have h0 := solo_mutHandle_mark mode h i
    rw [hMM] at h0
    rw [solo_bind_eq h0 _ (solo_mutHandle_none mode hw hc (by omega))]
    rw [swapAt_none (fun h => hi h.1)]
    by_cases hj : j < l.length
    · have hvj := hM.at (List.getElem?_eq_getElem hj)
      rw [bind_eq, solo_bind (solo_mutHandle mode hw hc (by omega) hvj)]
      simp only
      rw [bind_eq, COpt.unlock, solo_bind (solo_act hvj.exec_unlock)]
      exact ⟨M, by simp [Prog.solo, hi], hM, hmc⟩
    · rw [bind_eq, solo_bind (solo_mutHandle_none mode hw hc (by omega))]
      exact ⟨M, by simp [Prog.solo, hi], hM, hmc⟩

end

end Verif
