import Verif.Proof.Compare
import Verif.Proof.Views
import Verif.Spec.ListSpec

/-!
# Comparing operands that nobody changes, for C55
-/

namespace Verif

variable {α β : Type}

theorem equalLists_drop {veq : α → α → Option Bool} : ∀ {j : Nat} {xs ys : List α},
    (∀ i, i < j → ∃ x y, xs[i]? = some x ∧ ys[i]? = some y ∧ veq x y = some true) →
    equalLists veq xs ys = equalLists veq (xs.drop j) (ys.drop j)
  | 0, xs, ys, _ => by simp
  | j + 1, xs, ys, h => by
    obtain ⟨x, y, hx, hy, hxy⟩ := h 0 (by omega)
    cases xs with
    | nil => simp at hx
    | cons x' xs =>
      cases ys with
      | nil => simp at hy
      | cons y' ys =>
        simp only [List.getElem?_cons_zero, Option.some.injEq] at hx hy
        subst hx hy
        simp only [equalLists, hxy, List.drop_succ_cons]
        exact equalLists_drop fun i hi => by
          have := h (i + 1) (by omega)
          simpa only [List.getElem?_cons_succ] using this

/-- The results of the single comparisons determine the result. -/
theorem Verdict.equalLists {veq : α → α → Option Bool} {es fs : List Nat} {xs ys : List α} {rs : List (Option Bool)} {b : Bool}
    (hv : Verdict es fs rs b) (hx : es.length = xs.length) (hy : fs.length = ys.length)
    (h : ∀ (i : Nat) r, rs[i]? = some r → ∃ x y, xs[i]? = some x ∧ ys[i]? = some y ∧ veq x y = r) : equalLists veq xs ys = some b := by
  have hrep : ∀ {n i : Nat}, i < n → (List.replicate n (some true))[i]? = some (some true) := by
    intro n i hi; simp [hi]
  cases hv with
  | equal hl =>
    rw [equalLists_drop (j := es.length) fun i hi => h i _ (hrep hi)]
    rw [List.drop_eq_nil_of_le (by omega), List.drop_eq_nil_of_le (by omega)]
    rfl
  | differ j =>
    rw [equalLists_drop (j := j) fun i hi => h i _ (by rw [List.getElem?_append_left (by simpa using hi)]; exact hrep hi)]
    obtain ⟨x, y, h1, h2, h3⟩ := h j (some false) (by simp)
    obtain ⟨h4, rfl⟩ := List.getElem?_eq_some_iff.1 h1
    obtain ⟨h5, rfl⟩ := List.getElem?_eq_some_iff.1 h2
    rw [List.drop_eq_getElem_cons h4, List.drop_eq_getElem_cons h5]
    simp only [Verif.equalLists, h3]
  | length hne =>
    rw [equalLists_drop (j := min es.length fs.length) fun i hi => h i _ (hrep hi)]
    rcases Nat.lt_or_ge es.length fs.length with hlt | hge
    · rw [List.drop_eq_nil_of_le (as := xs) (by omega), List.drop_eq_getElem_cons (l := ys) (by omega)]
      rfl
    · rw [List.drop_eq_nil_of_le (as := ys) (by omega), List.drop_eq_getElem_cons (l := xs) (by omega)]
      rfl

theorem equalLists_panics {veq : α → α → Option Bool} {xs ys : List α} {j : Nat}
    (h : ∀ (i : Nat) r, (List.replicate j (some true) ++ [none])[i]? = some r → ∃ x y, xs[i]? = some x ∧ ys[i]? = some y ∧ veq x y = r) :
    equalLists veq xs ys = none := by
  rw [equalLists_drop (j := j) fun i hi => h i _ (by rw [List.getElem?_append_left (by simpa using hi)]; simp [hi])]
  obtain ⟨x, y, h1, h2, h3⟩ := h j none (by simp)
  obtain ⟨h4, rfl⟩ := List.getElem?_eq_some_iff.1 h1
  obtain ⟨h5, rfl⟩ := List.getElem?_eq_some_iff.1 h2
  rw [List.drop_eq_getElem_cons h4, List.drop_eq_getElem_cons h5]
  simp only [equalLists, h3]

variable {m : Nat → Mem α} {l : Nat → List α} {S : Nat → Sys α β} {n k : Nat} {T : Cmp α β}

/-- The elements of an operand which nobody changes. -/
theorem Steady.elements {s : Side} {vs : List α} {es : List Nat} (h : Steady S n k T s vs) (hm : ∀ u, InitMem (m u) (l u))
    (hI : SysInv m l (S n)) (he : (S n).Elements T s es) :
    es.length = vs.length ∧ ∀ (j : Nat) e, es[j]? = some e → e = (T.arg s).pos j := by
  have hsz := h.size
  unfold Sys.Elements at he
  cases ha : T.arg s with
  | vec =>
    simp only [ha] at hsz he
    obtain ⟨c, hc, hret⟩ := he
    have hret' := hret
    obtain ⟨ct, st, et, fin, hcall⟩ := hret
    have hhold := hsz c hc ⟨ct, st, _, hcall⟩
    obtain ⟨N, κ, hex, hN⟩ := (hI.reach (T.vecOf s)).exec
    rw [← hN] at hcall hhold
    obtain ⟨d, hi⟩ := (hex.inv (hm _) (Nat.le_refl _)).returned hcall
    obtain ⟨n', hlen, hes, -⟩ := hi.out
    cases hes
    have := (hex.observes (hm _) hcall rfl rfl hlen).exact vs hhold
    refine ⟨by simpa using this, fun j e hj => ?_⟩
    rw [List.getElem?_eq_some_iff] at hj
    obtain ⟨h1, h2⟩ := hj
    simp only [List.getElem_range] at h2
    exact h2.symm
  | slc t =>
    simp only [ha] at hsz he
    subst he
    refine ⟨by simp [Slc.view, hsz], fun j e hj => ?_⟩
    rw [List.getElem?_eq_some_iff] at hj
    obtain ⟨h1, h2⟩ := hj
    simp only [Slc.view, List.getElem_map, List.getElem_range] at h2
    exact h2.symm
  | el e =>
    simp only [ha] at hsz he
    subst he
    refine ⟨by simp [hsz], fun j e' hj => ?_⟩
    cases j with
    | zero => simp at hj; exact hj.symm
    | succ j => simp at hj

/-- What comparing pairs of elements which nobody changes says about the values. -/
theorem Compared.values {es fs : List Nat} {rs : List (Option Bool)} {τ : Nat → Nat} (h : Compared S n k T es fs rs τ)
    {xs ys : List α} (hx : Steady S n k T .left xs) (hy : Steady S n k T .right ys)
    (h1 : es.length = xs.length ∧ ∀ (j : Nat) e, es[j]? = some e → e = (T.arg .left).pos j)
    (h2 : fs.length = ys.length ∧ ∀ (j : Nat) e, fs[j]? = some e → e = (T.arg .right).pos j) :
    ∀ (i : Nat) r, rs[i]? = some r → ∃ x y, xs[i]? = some x ∧ ys[i]? = some y ∧ T.veq x y = r := by
  intro i r hr
  obtain ⟨hle, e, f, he, hf, hcmp, x, y, h3, h4, h5⟩ := h.pair i r hr
  have hi := (List.getElem?_eq_some_iff.1 he).1
  have hj := (List.getElem?_eq_some_iff.1 hf).1
  rw [h1.2 _ _ he] at h3
  rw [h2.2 _ _ hf] at h4
  refine ⟨x, y, ?_, ?_, h5⟩
  · rw [← hx.content _ hle hcmp i (by omega)]; exact h3
  · rw [← hy.content _ hle hcmp i (by omega)]; exact h4

end Verif
