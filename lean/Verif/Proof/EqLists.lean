import Verif.Spec.Accesses

/-!
# Comparing with a list: the outcomes, one element at a time

Helper file (no property statements).
-/

namespace Verif

variable {α : Type} {c : Cid} {a n : Nat} {veq : α → α → Option Bool} {t : α} {ts : List α} {d : List (Ev α)} {v : α} {b : Bool}

theorem OutEq.zero (a : Nat) (veq : α → α → Option Bool) (ts : List α) : OutEq c a 0 veq ts [] (decide (0 = ts.length)) :=
  .inl ⟨[], by simp, rfl, by simp, rfl⟩

theorem OutEq.nil (a : Nat) (veq : α → α → Option Bool) (n : Nat) : OutEq c a (n + 1) veq [] [] false :=
  .inl ⟨[], by simp, rfl, by simp, by simp⟩

theorem OutEq.differ (h : veq v t = some false) : OutEq c a (n + 1) veq (t :: ts) [.read c a v] false :=
  .inr ⟨[], v, t, by simp, rfl, by simp, by simp, h, rfl⟩

theorem OutEq.cons (h : OutEq c (a + 1) n veq ts d b) (hv : veq v t = some true) :
    OutEq c a (n + 1) veq (t :: ts) (.read c a v :: d) b := by
  rcases h with ⟨vs, h1, rfl, h2, rfl⟩ | ⟨vs, x, u, h1, rfl, h2, h3, h4, rfl⟩
  · exact .inl ⟨v :: vs, by simp; omega, by simp [reads], by simpa [hv] using h2, by simp⟩
  · exact .inr ⟨v :: vs, x, u, by simp; omega, by simp [reads], by simpa [hv] using h2, by simpa using h3, h4, rfl⟩

theorem FailEq.here (h : veq v t = none) : FailEq c a (n + 1) veq (t :: ts) [.read c a v] :=
  ⟨[], v, t, by simp, rfl, by simp, by simp, h⟩

theorem FailEq.cons (h : FailEq c (a + 1) n veq ts d) (hv : veq v t = some true) :
    FailEq c a (n + 1) veq (t :: ts) (.read c a v :: d) := by
  obtain ⟨vs, x, u, h1, rfl, h2, h3, h4⟩ := h
  exact ⟨v :: vs, x, u, by simp; omega, by simp [reads], by simpa [hv] using h2, by simpa using h3, h4⟩

end Verif
