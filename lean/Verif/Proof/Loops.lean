import Verif.Proof.Ops
import Verif.Proof.EqLists

/-!
# Rules for loops over elements, `swap`, slices

Helper file (no property statements).
-/

set_option linter.unusedSimpArgs false

namespace Verif

variable {α β ρ : Type}

variable {X : Ctx α} {Q : ρ → World α → Prop} {QP : PanicKind → World α → Prop}
  {w0 : World α} {g : Prop}

theorem safe_loopCloned : ∀ (n a : Nat) {w : World α} {d : List (Ev α)} {f : List α → Prog α ρ},
    Inv X.σ₀ w → Loc X.c w0 noPos noPos d g w →
    (∀ i, a ≤ i → i < a + n → (w.spec.val i).isSome) →
    (∀ d i v, a ≤ i → i < a + n → X.A d (.read X.c i v)) →
    (∀ w1 vs, Inv X.σ₀ w1 → Evolves w w1 → Loc X.c w0 noPos noPos (d ++ reads X.c a vs) g w1 →
      vs.length = n → Safe X Q QP (f vs) w1) →
    Safe X Q QP ((Loop.cloned (positions a n)).bind f) w := by
  intro n
  induction n with
  | zero =>
    intro a w d f hI hL hp hA h
    simp only [positions, List.range'_zero, Loop.cloned, Prog.pure_eq, Prog.ret_bind]
    exact h w [] hI (.refl _) (by simpa [reads] using hL) rfl
  | succ n ih =>
    intro a w d f hI hL hp hA h
    simp only [positions, List.range'_succ, Loop.cloned, Prog.bind_eq, Prog.bind_assoc, Prog.pure_eq]
    refine safe_cloned hI hL (hp a (by omega) (by omega)) (fun v => hA _ a v (by omega) (by omega))
      fun w1 v hI1 he1 hL1 => ?_
    refine ih (a + 1) hI1 hL1 (fun i h1 h2 => he1.pub i (hp i (by omega) (by omega)))
      (fun d i v h1 h2 => hA d i v (by omega) (by omega)) fun w2 vs hI2 he2 hL2 hlen => ?_
    simp only [Prog.ret_bind]
    exact h w2 (v :: vs) hI2 (he1.trans he2) (by simpa [reads] using hL2) (by simp [hlen])

theorem safe_loopMap {φ : α → Option β} :
    ∀ (n a : Nat) {w : World α} {d : List (Ev α)} {f : List β → Prog α ρ},
    Inv X.σ₀ w → Loc X.c w0 noPos noPos d g w →
    (∀ i, a ≤ i → i < a + n → (w.spec.val i).isSome) →
    (∀ d i v, a ≤ i → i < a + n → X.A d (.read X.c i v)) →
    (∀ w1 vs bs, Inv X.σ₀ w1 → Evolves w w1 → Loc X.c w0 noPos noPos (d ++ reads X.c a vs) g w1 →
      vs.length = n → vs.map φ = bs.map some → Safe X Q QP (f bs) w1) →
    (∀ w1 vs x, Inv X.σ₀ w1 → Evolves w w1 → Loc X.c w0 noPos noPos (d ++ reads X.c a (vs ++ [x])) g w1 →
      vs.length < n → φ x = none → (∀ y ∈ vs, φ y ≠ none) → QP .userCode w1) →
    Safe X Q QP ((Loop.map φ (positions a n)).bind f) w := by
  intro n
  induction n with
  | zero =>
    intro a w d f hI hL hp hA h hu
    simp only [positions, List.range'_zero, Loop.map, Prog.pure_eq, Prog.ret_bind]
    exact h w [] [] hI (.refl _) (by simpa [reads] using hL) rfl rfl
  | succ n ih =>
    intro a w d f hI hL hp hA h hu
    simp only [positions, List.range'_succ, Loop.map, Prog.bind_eq, Prog.bind_assoc, Prog.pure_eq]
    refine safe_map hI hL (hp a (by omega) (by omega)) (fun v => hA _ a v (by omega) (by omega))
      (fun w1 v b hI1 he1 hL1 hb => ?_) (fun w1 v hI1 he1 hL1 hb => ?_)
    · refine ih (a + 1) hI1 hL1 (fun i h1 h2 => he1.pub i (hp i (by omega) (by omega)))
        (fun d i v h1 h2 => hA d i v (by omega) (by omega)) (fun w2 vs bs hI2 he2 hL2 hlen hbs => ?_)
        (fun w2 vs x hI2 he2 hL2 hlen hx hall => ?_)
      · simp only [Prog.ret_bind]
        exact h w2 (v :: vs) (b :: bs) hI2 (he1.trans he2) (by simpa [reads] using hL2) (by simp [hlen])
          (by simp [hb, hbs])
      · refine hu w2 (v :: vs) x hI2 (he1.trans he2) (by simpa [reads] using hL2) (by simp; omega) hx ?_
        intro y hy
        rcases List.mem_cons.1 hy with rfl | hy
        · simp [hb]
        · exact hall y hy
    · exact hu w1 [] v hI1 he1 (by simpa [reads] using hL1) (by simp) hb (by simp)

theorem safe_loopFilter {φ : α → Option Bool} :
    ∀ (n a : Nat) {w : World α} {d : List (Ev α)} {f : List Nat → Prog α ρ},
    Inv X.σ₀ w → Loc X.c w0 noPos noPos d g w →
    (∀ i, a ≤ i → i < a + n → (w.spec.val i).isSome) →
    (∀ d i v, a ≤ i → i < a + n → X.A d (.read X.c i v)) →
    (∀ w1 vs, Inv X.σ₀ w1 → Evolves w w1 → Loc X.c w0 noPos noPos (d ++ reads X.c a vs) g w1 →
      vs.length = n → (∀ x ∈ vs, φ x ≠ none) → Safe X Q QP (f (selected φ a vs)) w1) →
    (∀ w1 vs x, Inv X.σ₀ w1 → Evolves w w1 → Loc X.c w0 noPos noPos (d ++ reads X.c a (vs ++ [x])) g w1 →
      vs.length < n → φ x = none → (∀ y ∈ vs, φ y ≠ none) → QP .userCode w1) →
    Safe X Q QP ((Loop.filter φ (positions a n)).bind f) w := by
  intro n
  induction n with
  | zero =>
    intro a w d f hI hL hp hA h hu
    simp only [positions, List.range'_zero, Loop.filter, Prog.pure_eq, Prog.ret_bind]
    exact h w [] hI (.refl _) (by simpa [reads] using hL) rfl (by simp)
  | succ n ih =>
    intro a w d f hI hL hp hA h hu
    simp only [positions, List.range'_succ, Loop.filter, Prog.bind_eq, Prog.bind_assoc, Prog.pure_eq]
    refine safe_map hI hL (hp a (by omega) (by omega)) (fun v => hA _ a v (by omega) (by omega))
      (fun w1 v b hI1 he1 hL1 hb => ?_) (fun w1 v hI1 he1 hL1 hb => ?_)
    · refine ih (a + 1) hI1 hL1 (fun i h1 h2 => he1.pub i (hp i (by omega) (by omega)))
        (fun d i v h1 h2 => hA d i v (by omega) (by omega)) (fun w2 vs hI2 he2 hL2 hlen hall => ?_)
        (fun w2 vs x hI2 he2 hL2 hlen hx hall => ?_)
      · simp only [Prog.ret_bind]
        have := h w2 (v :: vs) hI2 (he1.trans he2) (by simpa [reads] using hL2) (by simp [hlen])
          (by simpa [hb] using hall)
        simpa [selected, hb] using this
      · refine hu w2 (v :: vs) x hI2 (he1.trans he2) (by simpa [reads] using hL2) (by simp; omega) hx ?_
        intro y hy
        rcases List.mem_cons.1 hy with rfl | hy
        · simp [hb]
        · exact hall y hy
    · exact hu w1 [] v hI1 he1 (by simpa [reads] using hL1) (by simp) hb (by simp)

theorem safe_loopFold {φ : β → α → Option β} :
    ∀ (n a : Nat) (init : β) {w : World α} {d : List (Ev α)} {f : β → Prog α ρ},
    Inv X.σ₀ w → Loc X.c w0 noPos noPos d g w →
    (∀ i, a ≤ i → i < a + n → (w.spec.val i).isSome) →
    (∀ d i v, a ≤ i → i < a + n → X.A d (.read X.c i v)) →
    (∀ w1 vs b, Inv X.σ₀ w1 → Evolves w w1 → Loc X.c w0 noPos noPos (d ++ reads X.c a vs) g w1 →
      vs.length = n → vs.foldlM φ init = some b → Safe X Q QP (f b) w1) →
    (∀ w1 vs x agg, Inv X.σ₀ w1 → Evolves w w1 →
      Loc X.c w0 noPos noPos (d ++ reads X.c a (vs ++ [x])) g w1 →
      vs.length < n → vs.foldlM φ init = some agg → φ agg x = none → QP .userCode w1) →
    Safe X Q QP ((Loop.fold φ init (positions a n)).bind f) w := by
  intro n
  induction n with
  | zero =>
    intro a init w d f hI hL hp hA h hu
    simp only [positions, List.range'_zero, Loop.fold, Prog.pure_eq, Prog.ret_bind]
    exact h w [] init hI (.refl _) (by simpa [reads] using hL) rfl rfl
  | succ n ih =>
    intro a init w d f hI hL hp hA h hu
    simp only [positions, List.range'_succ, Loop.fold, Prog.bind_eq, Prog.bind_assoc, Prog.pure_eq]
    refine safe_map hI hL (hp a (by omega) (by omega)) (fun v => hA _ a v (by omega) (by omega))
      (fun w1 v b hI1 he1 hL1 hb => ?_) (fun w1 v hI1 he1 hL1 hb => ?_)
    · refine ih (a + 1) b hI1 hL1 (fun i h1 h2 => he1.pub i (hp i (by omega) (by omega)))
        (fun d i v h1 h2 => hA d i v (by omega) (by omega)) (fun w2 vs b' hI2 he2 hL2 hlen hbs => ?_)
        (fun w2 vs x agg hI2 he2 hL2 hlen hagg hx => ?_)
      · exact h w2 (v :: vs) b' hI2 (he1.trans he2) (by simpa [reads] using hL2) (by simp [hlen])
          (by simp [hb, hbs])
      · exact hu w2 (v :: vs) x agg hI2 (he1.trans he2) (by simpa [reads] using hL2) (by simp; omega)
          (by simp [hb, hagg]) hx
    · exact hu w1 [] v init hI1 he1 (by simpa [reads] using hL1) (by simp) rfl hb

theorem safe_loopVisit {φ : β → α → Option (β × Bool)} :
    ∀ (n a : Nat) (init : β) {w : World α} {d : List (Ev α)} {f : β → Prog α ρ},
    Inv X.σ₀ w → Loc X.c w0 noPos noPos d g w →
    (∀ i, a ≤ i → i < a + n → (w.spec.val i).isSome) →
    (∀ d i v, a ≤ i → i < a + n → X.A d (.read X.c i v)) →
    (∀ w1 vs b go, Inv X.σ₀ w1 → Evolves w w1 → Loc X.c w0 noPos noPos (d ++ reads X.c a vs) g w1 →
      called φ init vs = some (b, go) → vs.length ≤ n → (go = true → vs.length = n) → Safe X Q QP (f b) w1) →
    (∀ w1 vs x agg, Inv X.σ₀ w1 → Evolves w w1 →
      Loc X.c w0 noPos noPos (d ++ reads X.c a (vs ++ [x])) g w1 →
      vs.length < n → called φ init vs = some (agg, true) → φ agg x = none → QP .userCode w1) →
    Safe X Q QP ((Loop.visit φ init (positions a n)).bind f) w := by
  intro n
  induction n with
  | zero =>
    intro a init w d f hI hL hp hA h hu
    simp only [positions, List.range'_zero, Loop.visit, Prog.pure_eq, Prog.ret_bind]
    exact h w [] init true hI (.refl _) (by simpa [reads] using hL) rfl (Nat.le_refl _) fun _ => rfl
  | succ n ih =>
    intro a init w d f hI hL hp hA h hu
    simp only [positions, List.range'_succ, Loop.visit, Prog.bind_eq, Prog.bind_assoc, Prog.pure_eq]
    refine safe_map hI hL (hp a (by omega) (by omega)) (fun v => hA _ a v (by omega) (by omega))
      (fun w1 v r hI1 he1 hL1 hb => ?_) (fun w1 v hI1 he1 hL1 hb => ?_)
    · obtain ⟨b, go⟩ := r
      cases go with
      | false =>
        exact h w1 [v] b false hI1 he1 (by simpa [reads] using hL1) (by simp [called, hb]) (by simp) (by simp)
      | true =>
        refine ih (a + 1) b hI1 hL1 (fun i h1 h2 => he1.pub i (hp i (by omega) (by omega)))
          (fun d i v h1 h2 => hA d i v (by omega) (by omega)) (fun w2 vs b' go hI2 he2 hL2 hc hlen hgo => ?_)
          (fun w2 vs x agg hI2 he2 hL2 hlen hagg hx => ?_)
        · exact h w2 (v :: vs) b' go hI2 (he1.trans he2) (by simpa [reads] using hL2) (by simp [called, hb, hc])
            (by simp; omega) (fun hg => by simp [hgo hg])
        · exact hu w2 (v :: vs) x agg hI2 (he1.trans he2) (by simpa [reads] using hL2) (by simp; omega)
            (by simp [called, hb, hagg]) hx
    · exact hu w1 [] v init hI1 he1 (by simpa [reads] using hL1) (by simp) rfl hb

theorem safe_loopReduce {φ : α → α → Option α} (n a : Nat) {w : World α} {d : List (Ev α)}
    {f : Option α → Prog α ρ} (hI : Inv X.σ₀ w) (hL : Loc X.c w0 noPos noPos d g w)
    (hp : ∀ i, a ≤ i → i < a + n → (w.spec.val i).isSome)
    (hA : ∀ d i v, a ≤ i → i < a + n → X.A d (.read X.c i v))
    (hn : ∀ w1, Inv X.σ₀ w1 → Evolves w w1 → Loc X.c w0 noPos noPos d g w1 → n = 0 → Safe X Q QP (f none) w1)
    (h : ∀ w1 v vs b, Inv X.σ₀ w1 → Evolves w w1 →
      Loc X.c w0 noPos noPos (d ++ reads X.c a (v :: vs)) g w1 →
      vs.length + 1 = n → vs.foldlM φ v = some b → Safe X Q QP (f (some b)) w1)
    (hu : ∀ w1 v vs x agg, Inv X.σ₀ w1 → Evolves w w1 →
      Loc X.c w0 noPos noPos (d ++ reads X.c a (v :: (vs ++ [x]))) g w1 →
      vs.length + 1 < n → vs.foldlM φ v = some agg → φ agg x = none → QP .userCode w1) :
    Safe X Q QP ((Loop.reduce φ (positions a n)).bind f) w := by
  cases n with
  | zero =>
    simp only [positions, List.range'_zero, Loop.reduce, Prog.pure_eq, Prog.ret_bind]
    exact hn w hI (.refl _) hL rfl
  | succ n =>
    simp only [positions, List.range'_succ, Loop.reduce, Prog.bind_eq, Prog.bind_assoc, Prog.pure_eq]
    refine safe_cloned hI hL (hp a (by omega) (by omega)) (fun v => hA _ a v (by omega) (by omega))
      fun w1 v hI1 he1 hL1 => ?_
    refine safe_loopFold n (a + 1) v hI1 hL1 (fun i h1 h2 => he1.pub i (hp i (by omega) (by omega)))
      (fun d i v h1 h2 => hA d i v (by omega) (by omega)) (fun w2 vs b hI2 he2 hL2 hlen hb => ?_)
      (fun w2 vs x agg hI2 he2 hL2 hlen hagg hx => ?_)
    · simp only [Prog.ret_bind]
      exact h w2 v vs b hI2 (he1.trans he2) (by simpa [reads] using hL2) (by omega) hb
    · exact hu w2 v vs x agg hI2 (he1.trans he2) (by simpa [reads] using hL2) (by omega) hagg hx

theorem safe_loopPosition {veq : α → α → Bool} {t : α} :
    ∀ (n a k : Nat) {w : World α} {d : List (Ev α)} {f : Option Nat → Prog α ρ},
    Inv X.σ₀ w → Loc X.c w0 noPos noPos d g w →
    (∀ i, a ≤ i → i < a + n → (w.spec.val i).isSome) →
    (∀ d i v, a ≤ i → i < a + n → X.A d (.read X.c i v)) →
    (∀ w1 vs, Inv X.σ₀ w1 → Evolves w w1 → Loc X.c w0 noPos noPos (d ++ reads X.c a vs) g w1 →
      vs.length = n → (∀ x ∈ vs, veq x t = false) → Safe X Q QP (f none) w1) →
    (∀ w1 vs x, Inv X.σ₀ w1 → Evolves w w1 → Loc X.c w0 noPos noPos (d ++ reads X.c a (vs ++ [x])) g w1 →
      vs.length < n → (∀ y ∈ vs, veq y t = false) → veq x t = true →
      Safe X Q QP (f (some (k + vs.length))) w1) →
    Safe X Q QP ((Loop.position veq t k (positions a n)).bind f) w := by
  intro n
  induction n with
  | zero =>
    intro a k w d f hI hL hp hA hn h
    simp only [positions, List.range'_zero, Loop.position, Prog.pure_eq, Prog.ret_bind]
    exact hn w [] hI (.refl _) (by simpa [reads] using hL) rfl (by simp)
  | succ n ih =>
    intro a k w d f hI hL hp hA hn h
    simp only [positions, List.range'_succ, Loop.position, Prog.bind_eq, Prog.bind_assoc, Prog.pure_eq,
      Elem.eqVal]
    refine safe_map hI hL (hp a (by omega) (by omega)) (fun v => hA _ a v (by omega) (by omega))
      (fun w1 v b hI1 he1 hL1 hb => ?_) (fun w1 v hI1 he1 hL1 hb => by simp at hb)
    simp only [Option.some.injEq] at hb
    cases b with
    | true =>
      simp only [if_true, Prog.ret_bind]
      exact h w1 [] v hI1 he1 (by simpa [reads] using hL1) (by simp) (by simp) hb
    | false =>
      simp only [Bool.false_eq_true, if_false]
      refine ih (a + 1) (k + 1) hI1 hL1 (fun i h1 h2 => he1.pub i (hp i (by omega) (by omega)))
        (fun d i v h1 h2 => hA d i v (by omega) (by omega)) (fun w2 vs hI2 he2 hL2 hlen hall => ?_)
        (fun w2 vs x hI2 he2 hL2 hlen hall hx => ?_)
      · exact hn w2 (v :: vs) hI2 (he1.trans he2) (by simpa [reads] using hL2) (by simp [hlen])
          (by simpa [hb] using hall)
      · have := h w2 (v :: vs) x hI2 (he1.trans he2) (by simpa [reads] using hL2) (by simp; omega)
          (by simpa [hb] using hall) hx
        simpa [Nat.add_assoc, Nat.add_comm 1] using this

theorem safe_loopFill {v : α} :
    ∀ (n a : Nat) {w : World α} {d : List (Ev α)} {f : Unit → Prog α ρ},
    Inv X.σ₀ w → Loc X.c w0 noPos noPos d g w →
    (∀ i, a ≤ i → i < a + n → (w.spec.val i).isSome) →
    (∀ d i old, a ≤ i → i < a + n → X.A d (.write X.c i old v)) →
    (∀ w1 (olds : List α), Inv X.σ₀ w1 → Evolves w w1 →
      Loc X.c w0 noPos noPos (d ++ writes X.c a (olds.map (fun o => (o, v)))) g w1 →
      olds.length = n → Safe X Q QP (f ()) w1) →
    Safe X Q QP ((Loop.fill v (positions a n)).bind f) w := by
  intro n
  induction n with
  | zero =>
    intro a w d f hI hL hp hA h
    simp only [positions, List.range'_zero, Loop.fill, Prog.pure_eq, Prog.ret_bind]
    exact h w [] hI (.refl _) (by simpa [writes] using hL) rfl
  | succ n ih =>
    intro a w d f hI hL hp hA h
    simp only [positions, List.range'_succ, Loop.fill, Prog.bind_eq, Prog.bind_assoc, Prog.pure_eq]
    refine safe_set hI hL (hp a (by omega) (by omega)) (fun old => hA _ a old (by omega) (by omega))
      fun w1 old hI1 he1 hL1 => ?_
    refine ih (a + 1) hI1 hL1 (fun i h1 h2 => he1.pub i (hp i (by omega) (by omega)))
      (fun d i old h1 h2 => hA d i old (by omega) (by omega)) fun w2 olds hI2 he2 hL2 hlen => ?_
    exact h w2 (old :: olds) hI2 (he1.trans he2) (by simpa [writes] using hL2) (by simp [hlen])

theorem safe_loopFillWith {φ : Nat → Option α} :
    ∀ (n a k : Nat) {w : World α} {d : List (Ev α)} {f : Unit → Prog α ρ},
    Inv X.σ₀ w → Loc X.c w0 noPos noPos d g w →
    (∀ i, a ≤ i → i < a + n → (w.spec.val i).isSome) →
    (∀ d i old v, a ≤ i → i < a + n → φ (k + (i - a)) = some v → X.A d (.write X.c i old v)) →
    (∀ w1 ps, Inv X.σ₀ w1 → Evolves w w1 → Loc X.c w0 noPos noPos (d ++ writes X.c a ps) g w1 →
      ps.length = n → (∀ j (hj : j < ps.length), φ (k + j) = some (ps[j]).2) → Safe X Q QP (f ()) w1) →
    (∀ w1 ps, Inv X.σ₀ w1 → Evolves w w1 → Loc X.c w0 noPos noPos (d ++ writes X.c a ps) g w1 →
      ps.length < n → (∀ j (hj : j < ps.length), φ (k + j) = some (ps[j]).2) → φ (k + ps.length) = none →
      QP .userCode w1) →
    Safe X Q QP ((Loop.fillWith φ k (positions a n)).bind f) w := by
  intro n
  induction n with
  | zero =>
    intro a k w d f hI hL hp hA h hu
    simp only [positions, List.range'_zero, Loop.fillWith, Prog.pure_eq, Prog.ret_bind]
    exact h w [] hI (.refl _) (by simpa [writes] using hL) rfl (by simp)
  | succ n ih =>
    intro a k w d f hI hL hp hA h hu
    simp only [positions, List.range'_succ, Loop.fillWith, Prog.bind_eq, Prog.bind_assoc, Prog.pure_eq]
    rcases hφ : φ k with _ | v
    · simp only [Prog.panic_bind]
      exact safe_panic hI hL fun w1 hI1 he1 hL1 =>
        hu w1 [] hI1 he1 (by simpa [writes] using hL1) (by simp) (by simp) hφ
    · simp only [Prog.bind_assoc]
      refine safe_set hI hL (hp a (by omega) (by omega))
        (fun old => hA _ a old v (by omega) (by omega) (by simpa using hφ)) fun w1 old hI1 he1 hL1 => ?_
      have key : ∀ ps : List (α × α), (∀ j (hj : j < ps.length), φ (k + 1 + j) = some (ps[j]).2) →
          ∀ j (hj : j < ((old, v) :: ps).length), φ (k + j) = some (((old, v) :: ps)[j]).2 := by
        intro ps hps j hj
        cases j with
        | zero => simpa using hφ
        | succ j =>
          have := hps j (by simpa using hj)
          rw [show k + (j + 1) = k + 1 + j by omega]
          simpa using this
      refine ih (a + 1) (k + 1) hI1 hL1 (fun i h1 h2 => he1.pub i (hp i (by omega) (by omega)))
        (fun d i old v h1 h2 h3 => hA d i old v (by omega) (by omega) ?_) (fun w2 ps hI2 he2 hL2 hlen hps => ?_)
        (fun w2 ps hI2 he2 hL2 hlen hps hn => ?_)
      · rw [show k + (i - a) = k + 1 + (i - (a + 1)) by omega]; exact h3
      · exact h w2 ((old, v) :: ps) hI2 (he1.trans he2) (by simpa [writes] using hL2) (by simp [hlen])
          (key ps hps)
      · refine hu w2 ((old, v) :: ps) hI2 (he1.trans he2) (by simpa [writes] using hL2) (by simp; omega)
          (key ps hps) ?_
        simp only [List.length_cons]
        rw [show k + (ps.length + 1) = k + 1 + ps.length by omega]; exact hn

/-- What `==` found: all pairs equal and same length, or not. -/
theorem safe_loopEqList {veq : α → α → Option Bool} :
    ∀ (n a : Nat) (ts : List α) {w : World α} {d : List (Ev α)} {f : Bool → Prog α ρ},
    Inv X.σ₀ w → Loc X.c w0 noPos noPos d g w →
    (∀ i, a ≤ i → i < a + n → (w.spec.val i).isSome) →
    (∀ d i v, a ≤ i → i < a + n → X.A d (.read X.c i v)) →
    (∀ w1 d' b, Inv X.σ₀ w1 → Evolves w w1 → Loc X.c w0 noPos noPos (d ++ d') g w1 →
      OutEq X.c a n veq ts d' b → Safe X Q QP (f b) w1) →
    (∀ w1 d', Inv X.σ₀ w1 → Evolves w w1 → Loc X.c w0 noPos noPos (d ++ d') g w1 →
      FailEq X.c a n veq ts d' → QP .userCode w1) →
    Safe X Q QP ((Loop.eqList veq (positions a n) ts).bind f) w := by
  intro n
  induction n with
  | zero =>
    intro a ts w d f hI hL hp hA h hu
    cases ts with
    | nil =>
      simp only [positions, List.range'_zero, Loop.eqList, Prog.pure_eq, Prog.ret_bind]
      exact h w [] true hI (.refl _) (by simpa using hL) (OutEq.zero _ _ _)
    | cons t ts =>
      simp only [positions, List.range'_zero, Loop.eqList, Prog.pure_eq, Prog.ret_bind]
      exact h w [] false hI (.refl _) (by simpa using hL) (OutEq.zero _ _ _)
  | succ n ih =>
    intro a ts w d f hI hL hp hA h hu
    cases ts with
    | nil =>
      simp only [positions, List.range'_succ, Loop.eqList, Prog.pure_eq, Prog.ret_bind]
      exact h w [] false hI (.refl _) (by simpa using hL) (OutEq.nil _ _ _)
    | cons t ts =>
      simp only [positions, List.range'_succ, Loop.eqList, Prog.bind_eq, Prog.bind_assoc, Prog.pure_eq]
      refine safe_isSomeAnd hI hL (hp a (by omega) (by omega)) (fun v => hA _ a v (by omega) (by omega))
        (fun w1 v b hI1 he1 hL1 hb => ?_) (fun w1 v hI1 he1 hL1 hb => ?_)
      · cases b with
        | false =>
          simp only [Bool.false_eq_true, if_false, Prog.ret_bind]
          exact h w1 _ false hI1 he1 hL1 (OutEq.differ hb)
        | true =>
          simp only [if_true]
          refine ih (a + 1) ts hI1 hL1 (fun i h1 h2 => he1.pub i (hp i (by omega) (by omega)))
            (fun d i v h1 h2 => hA d i v (by omega) (by omega)) (fun w2 d' b hI2 he2 hL2 ho => ?_)
            (fun w2 d' hI2 he2 hL2 ho => ?_)
          · exact h w2 _ b hI2 (he1.trans he2) (by simpa using hL2) (ho.cons hb)
          · exact hu w2 _ hI2 (he1.trans he2) (by simpa using hL2) (ho.cons hb)
      · exact hu w1 _ hI1 he1 hL1 (FailEq.here hb)

theorem safe_loopDebugRest {sh : α → String} :
    ∀ (n a : Nat) (s : String) {w : World α} {d : List (Ev α)} {f : String → Prog α ρ},
    Inv X.σ₀ w → Loc X.c w0 noPos noPos d g w →
    (∀ i, a ≤ i → i < a + n → (w.spec.val i).isSome) →
    (∀ d i v, a ≤ i → i < a + n → X.A d (.read X.c i v)) →
    (∀ w1 vs, Inv X.σ₀ w1 → Evolves w w1 → Loc X.c w0 noPos noPos (d ++ reads X.c a vs) g w1 →
      vs.length = n → Safe X Q QP (f (vs.foldl (fun s x => s ++ ", " ++ sh x) s)) w1) →
    Safe X Q QP ((Loop.debugRest sh s (positions a n)).bind f) w := by
  intro n
  induction n with
  | zero =>
    intro a s w d f hI hL hp hA h
    simp only [positions, List.range'_zero, Loop.debugRest, Prog.pure_eq, Prog.ret_bind]
    exact h w [] hI (.refl _) (by simpa [reads] using hL) rfl
  | succ n ih =>
    intro a s w d f hI hL hp hA h
    simp only [positions, List.range'_succ, Loop.debugRest, Prog.bind_eq, Prog.bind_assoc, Prog.pure_eq]
    refine safe_map hI hL (hp a (by omega) (by omega)) (fun v => hA _ a v (by omega) (by omega))
      (fun w1 v b hI1 he1 hL1 hb => ?_) (fun w1 v hI1 he1 hL1 hb => by simp at hb)
    simp only [Option.some.injEq] at hb
    subst hb
    refine ih (a + 1) _ hI1 hL1 (fun i h1 h2 => he1.pub i (hp i (by omega) (by omega)))
      (fun d i v h1 h2 => hA d i v (by omega) (by omega)) fun w2 vs hI2 he2 hL2 hlen => ?_
    exact h w2 (v :: vs) hI2 (he1.trans he2) (by simpa [reads] using hL2) (by simp [hlen])

theorem safe_loopDebug {sh : α → String} (n a : Nat) {w : World α} {d : List (Ev α)} {f : String → Prog α ρ}
    (hI : Inv X.σ₀ w) (hL : Loc X.c w0 noPos noPos d g w)
    (hp : ∀ i, a ≤ i → i < a + n → (w.spec.val i).isSome)
    (hA : ∀ d i v, a ≤ i → i < a + n → X.A d (.read X.c i v))
    (h : ∀ w1 vs, Inv X.σ₀ w1 → Evolves w w1 → Loc X.c w0 noPos noPos (d ++ reads X.c a vs) g w1 →
      vs.length = n → Safe X Q QP (f (debugText sh vs)) w1) :
    Safe X Q QP ((Loop.debug sh (positions a n)).bind f) w := by
  cases n with
  | zero =>
    simp only [positions, List.range'_zero, Loop.debug, Prog.pure_eq, Prog.ret_bind]
    exact h w [] hI (.refl _) (by simpa [reads] using hL) rfl
  | succ n =>
    simp only [positions, List.range'_succ, Loop.debug, Prog.bind_eq, Prog.bind_assoc, Prog.pure_eq]
    refine safe_map hI hL (hp a (by omega) (by omega)) (fun v => hA _ a v (by omega) (by omega))
      (fun w1 v b hI1 he1 hL1 hb => ?_) (fun w1 v hI1 he1 hL1 hb => by simp at hb)
    simp only [Option.some.injEq] at hb
    subst hb
    refine safe_loopDebugRest n (a + 1) _ hI1 hL1 (fun i h1 h2 => he1.pub i (hp i (by omega) (by omega)))
      (fun d i v h1 h2 => hA d i v (by omega) (by omega)) fun w2 vs hI2 he2 hL2 hlen => ?_
    simp only [Prog.ret_bind]
    exact h w2 (v :: vs) hI2 (he1.trans he2) (by simpa [reads] using hL2) (by simp [hlen])

/-- What an iterator over raw references of `[a, a+n)` found. -/
structure RawOK (c : Cid) (w0 : World α) (a n : Nat) (l : List Nat) (w : World α) : Prop where
  sorted : l.Pairwise (· < ·)
  mem : ∀ i ∈ l, a ≤ i ∧ i < a + n ∧ (w.spec.val i).isSome
  missing : ∀ i, a ≤ i → i < a + n → i ∉ l → w0.spec.val i = none ∨ ∃ d', Ev.busy c i d' ∈ w.trace

theorem safe_loopRaw {o : MOrd} (hAl : Looks X) :
    ∀ (n a : Nat) {w : World α} {d : List (Ev α)} {f : List Nat → Prog α ρ},
    Inv X.σ₀ w → Loc X.c w0 noPos noPos d g w → a + n ≤ w.mem.cap →
    (∀ w1 l, Inv X.σ₀ w1 → Evolves w w1 → Loc X.c w0 noPos noPos d g w1 →
      RawOK X.c w a n l w1 → Safe X Q QP (f l) w1) →
    Safe X Q QP ((Loop.rawRefs o (positions a n)).bind f) w := by
  intro n
  induction n with
  | zero =>
    intro a w d f hI hL hp h
    simp only [positions, List.range'_zero, Loop.rawRefs, Prog.pure_eq, Prog.ret_bind]
    exact h w [] hI (.refl _) hL ⟨by simp, by simp, fun i h1 h2 => by omega⟩
  | succ n ih =>
    intro a w d f hI hL hp h
    simp only [positions, List.range'_succ, Loop.rawRefs, Prog.bind_eq, Prog.bind_assoc, Prog.pure_eq]
    have hev : ∀ {w1 w2 : World α} {l : List Nat}, Evolves w w1 → Evolves w1 w2 → RawOK X.c w1 (a + 1) n l w2 →
        ∀ i, a + 1 ≤ i → i < a + 1 + n → i ∉ l →
          w.spec.val i = none ∨ ∃ d', Ev.busy X.c i d' ∈ w2.trace := by
      intro w1 w2 l he1 _ hraw i h1 h2 h3
      rcases hraw.missing i h1 h2 h3 with h4 | h4
      · exact .inl (none_of_evolves he1 h4)
      · exact .inr h4
    refine safe_getRaw hAl hI hL (by omega) (fun w1 hI1 hr1 hL1 hv => ?_) (fun w1 hI1 hr1 hL1 hv => ?_)
    · refine ih (a + 1) hI1 hL1 (by have := hr1.ev.cap; omega) fun w2 l hI2 he2 hL2 hraw => ?_
      simp only [Prog.ret_bind]
      refine h w2 (a :: l) hI2 (hr1.ev.trans he2) hL2 ⟨?_, ?_, ?_⟩
      · rw [List.pairwise_cons]
        exact ⟨fun i hi => by have := (hraw.mem i hi).1; omega, hraw.sorted⟩
      · intro i hi
        rcases List.mem_cons.1 hi with rfl | hi
        · exact ⟨by omega, by omega, he2.pub _ hv⟩
        · have := hraw.mem i hi; exact ⟨by omega, by omega, this.2.2⟩
      · intro i h1 h2 h3
        have hne : i ≠ a := fun hh => h3 (by simp [hh])
        exact hev hr1.ev he2 hraw i (by omega) (by omega) (fun hh => h3 (by simp [hh]))
    · refine ih (a + 1) hI1 hL1 (by have := hr1.ev.cap; omega) fun w2 l hI2 he2 hL2 hraw => ?_
      simp only [Prog.ret_bind]
      refine h w2 l hI2 (hr1.ev.trans he2) hL2 ⟨hraw.sorted, ?_, ?_⟩
      · intro i hi
        have := hraw.mem i hi; exact ⟨by omega, by omega, this.2.2⟩
      · intro i h1 h2 h3
        rcases Nat.lt_or_ge a i with hlt | hge
        · exact hev hr1.ev he2 hraw i (by omega) (by omega) h3
        · have : i = a := by omega
          subst this
          rcases hv with hv | ⟨d', hv⟩
          · exact .inl hv
          · exact .inr ⟨d', he2.trace.subset hv⟩

/-! ## `swap` -/

theorem safe_mutHandle {m : MutMode} {i : Nat} {w : World α} {L : Nat → Prop} {d : List (Ev α)}
    {f : Option Nat → Prog α ρ} (hA : Looks X) (hI : Inv X.σ₀ w) (hL : Loc X.c w0 L noPos d g w)
    (hnl : ∀ j, L j → j < w.mem.written) (hns : m = .spinning → ∀ j, L j → X.nested j i)
    (hs : ∀ n w1, Inv X.σ₀ w1 → Evolves w w1 → Loc X.c w0 (fun j => j = i ∨ L j) noPos d g w1 → ¬ L i →
      LenOK X.c w n w1 → i < n → Safe X Q QP (f (some i)) w1)
    (hn : ∀ n w1, Inv X.σ₀ w1 → Evolves w w1 → Loc X.c w0 L noPos d g w1 → LenOK X.c w n w1 →
      (n ≤ i ∨ m = .tryOnce) → Safe X Q QP (f none) w1) :
    Safe X Q QP ((CVec.mutHandle m i).bind f) w := by
  unfold CVec.mutHandle
  simp only [Prog.bind_eq, Prog.bind_assoc]
  refine safe_len hA hI hL hnl fun n w1 hI1 hr1 hL1 hlen => ?_
  by_cases hi : i < n
  · simp only [hi, if_true]
    simp only [Prog.bind_assoc]
    refine safe_colGet' hI1 hL1 (hI1.pub_cap i (hlen.pub i hi)) fun w2 hI2 hr2 hL2 => ?_
    have hlen2 := hlen.later hr2.ev
    have hp2 := hlen2.pub i hi
    simp only [Prog.bind_assoc, Prog.pure_eq]
    cases m with
    | spinning =>
      refine safe_lock hI2 hL2 (hI2.pub_cap i hp2) (fun _ h => h) (hns rfl) ?_ ?_
      · intro w3 hI3 he3 hL3 hni hp3
        simp only [if_true, Prog.ret_bind]
        exact hs n w3 hI3 ((hr1.trans hr2).ev.trans he3) hL3 hni (hlen2.later he3) hi
      · intro w3 hI3 hr3 hL3 hv
        simp [hv] at hp2
    | tryOnce =>
      refine safe_tryLock hI2 hL2 (hI2.pub_cap i hp2) ?_ ?_
      · intro w3 hI3 he3 hL3 hni hp3
        simp only [if_true, Prog.ret_bind]
        exact hs n w3 hI3 ((hr1.trans hr2).ev.trans he3) hL3 hni (hlen2.later he3) hi
      · intro w3 hI3 hr3 hL3
        simp only [Bool.false_eq_true, if_false, Prog.ret_bind]
        exact hn n w3 hI3 ((hr1.trans hr2).trans hr3).ev hL3 (hlen2.later hr3.ev) (.inr rfl)
  · simp only [hi, if_false, Prog.pure_eq, Prog.ret_bind]
    exact hn n w1 hI1 hr1.ev hL1 hlen (.inl (by omega))

theorem safe_swap {m : MutMode} {i j : Nat} {w : World α} {d : List (Ev α)}
    {f : Bool → Prog α ρ} (hA : Looks X) (hAs : i ≠ j → X.A d (.swap X.c i j)) (hI : Inv X.σ₀ w)
    (hL : Loc X.c w0 noPos noPos d g w)
    (hns : m = .spinning → X.nested i j)
    (hs : ∀ n w1, Inv X.σ₀ w1 → Evolves w w1 → Loc X.c w0 noPos noPos (d ++ [.swap X.c i j]) g w1 → i ≠ j →
      LenOK X.c w n w1 → i < n → j < n → Safe X Q QP (f true) w1)
    (hn : ∀ w1, Inv X.σ₀ w1 → Evolves w w1 → Loc X.c w0 noPos noPos d g w1 →
      ((∃ n, LenOK X.c w n w1 ∧ (n ≤ i ∨ n ≤ j)) ∨ m = .tryOnce) → Safe X Q QP (f false) w1) :
    Safe X Q QP ((CVec.swap m i j).bind f) w := by
  unfold CVec.swap
  simp only [Prog.bind_eq, Prog.bind_assoc]
  refine safe_mutHandle hA hI hL (fun _ h => h.elim) (fun _ _ h => h.elim) ?_ ?_
  · intro n w1 hI1 he1 hL1 _ hlen1 hin
    have hwr := hlen1.written
    refine safe_mutHandle hA hI1 hL1 (fun k hk => ?_) (fun hm k hk => ?_) ?_ ?_
    · rcases hk with rfl | hk
      · omega
      · exact hk.elim
    · rcases hk with rfl | hk
      · exact hns hm
      · exact hk.elim
    · intro n2 w2 hI2 he2 hL2 hnj hlen2 hjn
      have hij : i ≠ j := fun hh => hnj (.inl hh.symm)
      have hlo := hlen2.low
      simp only [Prog.bind_assoc, Prog.pure_eq]
      refine safe_valSwap hI2 hL2 hij (.inr (.inl rfl)) (.inl rfl) (hAs hij) fun w3 hI3 he3 hL3 => ?_
      refine safe_unlock hI3 hL3 (.inl rfl) fun w4 hI4 he4 hL4 => ?_
      refine safe_unlock hI4 hL4 ⟨hij, .inr (.inl rfl)⟩ fun w5 hI5 he5 hL5 => ?_
      simp only [Prog.ret_bind]
      have e25 := he3.trans (he4.trans he5)
      refine hs n2 w5 hI5 (he1.trans (he2.trans e25)) (hL5.congr (fun k => ?_) (fun _ => .rfl) rfl .rfl) hij
        ((hlen2.earlier he1).later e25) (by omega) hjn
      simp only [noPos]
      constructor
      · rintro ⟨h1, h2, h3 | h3 | h3⟩
        · exact h2 h3
        · exact h1 h3
        · exact h3
      · exact fun h => h.elim
    · intro n2 w2 hI2 he2 hL2 hlen2 hor
      simp only [Prog.bind_assoc, Prog.pure_eq]
      refine safe_unlock hI2 hL2 (.inl rfl) fun w3 hI3 he3 hL3 => ?_
      simp only [Prog.ret_bind]
      refine hn w3 hI3 (he1.trans (he2.trans he3)) (hL3.congr (noPos_after i) (fun _ => .rfl) rfl .rfl) ?_
      rcases hor with hor | hor
      · exact .inl ⟨n2, (hlen2.earlier he1).later he3, .inr hor⟩
      · exact .inr hor
  · intro n w1 hI1 he1 hL1 hlen1 hor
    refine safe_mutHandle hA hI1 hL1 (fun _ h => h.elim) (fun _ _ h => h.elim) ?_ ?_
    · intro n2 w2 hI2 he2 hL2 hnj hlen2 hjn
      simp only [Prog.bind_assoc, Prog.pure_eq]
      refine safe_unlock hI2 hL2 (.inl rfl) fun w3 hI3 he3 hL3 => ?_
      simp only [Prog.ret_bind]
      refine hn w3 hI3 (he1.trans (he2.trans he3)) (hL3.congr (noPos_after j) (fun _ => .rfl) rfl .rfl) ?_
      rcases hor with hor | hor
      · exact .inl ⟨n, hlen1.later (he2.trans he3), .inl hor⟩
      · exact .inr hor
    · intro n2 w2 hI2 he2 hL2 hlen2 _
      simp only [Prog.pure_eq, Prog.ret_bind]
      refine hn w2 hI2 (he1.trans he2) hL2 ?_
      rcases hor with hor | hor
      · exact .inl ⟨n, hlen1.later he2, .inl hor⟩
      · exact .inr hor

end Verif
