import Verif.Proof.Post

/-!
# Every API call meets its outcome specification

Helper file (no property statements).
-/

set_option linter.unusedSimpArgs false

namespace Verif

variable {α β : Type} {σ₀ : SpecSt α} {c : Cid} {w : World α}

theorem looks_ctx (op : Op α β) (σ₀ : SpecSt α) (c : Cid) : Looks (op.ctx σ₀ c) :=
  fun _ _ h1 h2 => ⟨h1, .inl h2⟩

/-- Statement proved for every operation. -/
abbrev OpSafe (op : Op α β) : Prop :=
  ∀ {σ₀ : SpecSt α} {c : Cid} {w : World α}, Inv σ₀ w → Loc c w noPos noPos [] False w →
    (∀ i ∈ op.needs, (w.spec.val i).isSome) → (∀ i ∈ op.needsPtr, (w.spec.val i).isSome) →
    Safe (op.ctx σ₀ c) (Post op c w) (PPost op c w) op.prog w

/-! ## growth -/

theorem opSafe_push (v : α) : OpSafe (.push v : Op α β) := by
  intro σ₀ c w hI hL _ _
  simp only [Op.prog, CVec.push, Prog.map_eq, Prog.bind_eq, Prog.bind_assoc, Prog.pure_eq, Prog.ret_bind]
  refine safe_resFetchAdd hI hL (fun b => ⟨rfl, .inr ⟨rfl, rfl⟩⟩) fun w1 b hI1 he1 hb _ hL1 => ?_
  refine safe_singleItem hI1 hL1 (.inl ⟨Nat.le_refl b, Nat.lt_succ_self b⟩)
    (fun j hj => hj.elim (fun h => h.1) False.elim)
    (fun w2 hI2 he2 hL2 hc2 => ?_) (fun w2 hI2 he2 hL2 hm => ?_)
  · refine safe_init hI2 hL2 (.inl ⟨by omega, by omega⟩)
      (fun j hj => hj.elim (fun h => by omega) False.elim) ⟨rfl, .inr ⟨rfl, rfl⟩⟩ fun w3 hI3 he3 hL3 => ?_
    refine safe_ret hI3 hL3 fun w4 hI4 he4 hL4 => ⟨_, hL4.congr (fun _ => .rfl) ?_ rfl .rfl, b, hb, rfl, rfl⟩
    intro j; simp only [noPos, or_false, iff_false]; omega
  · refine ⟨_, _, hL2, b, hb, rfl, hm, rfl, ?_⟩
    intro j; simp only [noPos, or_false]; omega

theorem opSafe_pushForIdx (f : Nat → Option α) : OpSafe (.pushForIdx f : Op α β) := by
  intro σ₀ c w hI hL _ _
  simp only [Op.prog, CVec.pushForIdx, Prog.map_eq, Prog.bind_eq, Prog.bind_assoc, Prog.pure_eq, Prog.ret_bind]
  refine safe_resFetchAdd hI hL (fun b => ⟨rfl, .inr ⟨rfl, rfl⟩⟩) fun w1 b hI1 he1 hb _ hL1 => ?_
  rcases hf : f b with _ | v
  · simp only [Prog.panic_bind]
    refine safe_panic hI1 hL1 fun w2 hI2 he2 hL2 => ⟨_, _, hL2, b, hb, rfl, ?_, .inr ⟨rfl, hf⟩⟩
    intro j; simp only [noPos, or_false]; omega
  · simp only [Prog.bind_assoc]
    refine safe_singleItem hI1 hL1 (.inl ⟨Nat.le_refl b, Nat.lt_succ_self b⟩)
      (fun j hj => hj.elim (fun h => h.1) False.elim)
      (fun w2 hI2 he2 hL2 hc2 => ?_) (fun w2 hI2 he2 hL2 hm => ?_)
    · refine safe_init hI2 hL2 (.inl ⟨by omega, by omega⟩)
        (fun j hj => hj.elim (fun h => by omega) False.elim) ⟨rfl, .inr ⟨rfl, hf⟩⟩ fun w3 hI3 he3 hL3 => ?_
      simp only [Prog.ret_bind]
      refine safe_ret hI3 hL3 fun w4 hI4 he4 hL4 =>
        ⟨_, hL4.congr (fun _ => .rfl) ?_ rfl .rfl, b, v, hb, rfl, hf, rfl⟩
      intro j; simp only [noPos, or_false, iff_false]; omega
    · refine ⟨_, _, hL2, b, hb, rfl, ?_, .inl ⟨rfl, hm, by simp [hf]⟩⟩
      intro j; simp only [noPos, or_false]; omega

/-- Common part of the `extend` functions, from the reservation on. -/
theorem safe_extendN {X : Ctx α} {ρ : Type} {Q : ρ → World α → Prop} {QP : PanicKind → World α → Prop}
    (items : List (Option α)) (n : Nat) {f : Nat → Prog α ρ} (hI : Inv X.σ₀ w)
    (hL : Loc X.c w noPos noPos [] False w) (hA : ∀ b, X.A [] (.reserve X.c b n))
    (hA' : ∀ d i v, Op.PubNext X.c items n d i v → X.A d (.publish X.c i v))
    (h : ∀ w1 b d, Inv X.σ₀ w1 → Loc X.c w noPos noPos d False w1 → OutGrow X.c w items n d b →
      Safe X Q QP (f b) w1)
    (hp : ∀ w1 b d U k, Inv X.σ₀ w1 → Loc X.c w noPos U d False w1 → FailGrow X.c w w1 items n U d k b →
      QP k w1) :
    Safe X Q QP ((CVec.extendN items n).bind f) w := by
  simp only [CVec.extendN, Prog.map_eq, Prog.bind_eq, Prog.bind_assoc, Prog.pure_eq, Prog.ret_bind]
  refine safe_resFetchAdd hI hL hA fun w1 b hI1 he1 hb _ hL1 => ?_
  have hL1' := hL1.congr (U' := fun i => b ≤ i ∧ i < b + n) (fun _ => .rfl) (fun i => by simp [noPos]) rfl .rfl
  refine safe_nItems hI1 hL1' (fun _ => .rfl) (fun w2 hI2 he2 hL2 hc2 => ?_) (fun w2 hI2 he2 hL2 hn hm => ?_)
  · refine safe_writeItems n b items hI2 hL2 (fun _ => .rfl) hc2
      (fun vs v hk hkv => hA' _ _ _ ⟨b, vs, rfl, rfl, hk, hkv⟩)
      (fun w3 vs hI3 he3 hL3 hlen hrest => ?_) (fun w3 vs hI3 he3 hlt hL3 heq => ?_)
      (fun w3 vs rest hI3 he3 hlt hL3 heq => ?_)
    · obtain ⟨rest, hrest⟩ := hrest
      exact h w3 b _ hI3 hL3 ⟨hb, vs, rest, hlen, hrest, rfl⟩
    · exact hp w3 b _ _ _ hI3 hL3 ⟨hb, by omega, vs, rfl, hlt, fun _ => .rfl, .inr (.inl ⟨rfl, by have := hc2 (by omega); have := he3.cap; omega, heq⟩)⟩
    · exact hp w3 b _ _ _ hI3 hL3 ⟨hb, by omega, vs, rfl, hlt, fun _ => .rfl,
        .inr (.inr ⟨rfl, by have := hc2 (by omega); have := he3.cap; omega, rest, heq⟩)⟩
  · exact hp w2 b _ _ _ hI2 hL2 ⟨hb, hn, [], rfl, hn, fun _ => .rfl, .inl ⟨rfl, rfl, hm⟩⟩

theorem opSafe_extend (it : Iter α) : OpSafe (.extend it : Op α β) := by
  intro σ₀ c w hI hL _ _
  simp only [Op.prog, CVec.extend, Prog.map_eq]
  refine safe_extendN _ _ hI hL (fun b => ⟨rfl, .inr ⟨rfl, rfl⟩⟩) (fun _ _ _ hv => ⟨rfl, .inr hv⟩)
    (fun w1 b d hI1 hL1 ho => ?_) (fun w1 b d U k hI1 hL1 ho => ⟨_, _, hL1, b, ho⟩)
  exact safe_ret hI1 hL1 fun w2 hI2 he2 hL2 => ⟨_, hL2, b, rfl, ho⟩

theorem opSafe_extendN (items : List (Option α)) (n : Nat) : OpSafe (.extendN items n : Op α β) := by
  intro σ₀ c w hI hL _ _
  simp only [Op.prog, Prog.map_eq]
  refine safe_extendN _ _ hI hL (fun b => ⟨rfl, .inr ⟨rfl, rfl⟩⟩) (fun _ _ _ hv => ⟨rfl, .inr hv⟩)
    (fun w1 b d hI1 hL1 ho => ?_) (fun w1 b d U k hI1 hL1 ho => ⟨_, _, hL1, b, ho⟩)
  exact safe_ret hI1 hL1 fun w2 hI2 he2 hL2 => ⟨_, hL2, b, rfl, ho⟩

theorem opSafe_extendForIdx (f : Nat → Option (Iter α)) (n : Nat) : OpSafe (.extendForIdx f n : Op α β) := by
  intro σ₀ c w hI hL _ _
  simp only [Op.prog, CVec.extendForIdx, Prog.map_eq, Prog.bind_eq, Prog.bind_assoc, Prog.pure_eq, Prog.ret_bind]
  refine safe_resFetchAdd hI hL (fun b => ⟨rfl, .inr ⟨rfl, rfl⟩⟩) fun w1 b hI1 he1 hb _ hL1 => ?_
  have hL1' := hL1.congr (U' := fun i => b ≤ i ∧ i < b + n) (fun _ => .rfl) (fun i => by simp [noPos]) rfl .rfl
  refine safe_nItems hI1 hL1' (fun _ => .rfl) (fun w2 hI2 he2 hL2 hc2 => ?_) (fun w2 hI2 he2 hL2 hn hm => ?_)
  · rcases hf : f b with _ | it
    · simp only [Prog.panic_bind]
      refine safe_panic hI2 hL2 fun w3 hI3 he3 hL3 =>
        ⟨_, _, hL3, b, .inr (.inr ⟨hb, rfl, fun _ => .rfl,
          fun h0 => Nat.le_trans (hc2 h0) he3.cap, .inl ⟨rfl, hf⟩⟩)⟩
    · by_cases hh : it.hint = n
      · simp only [hh, if_true, Prog.bind_assoc, Prog.ret_bind]
        refine safe_writeItems n b it.items hI2 hL2 (fun _ => .rfl) hc2
          (fun vs v hk hkv => ⟨rfl, .inr ⟨b, it, vs, hf, hh, rfl, rfl, hk, hkv⟩⟩)
          (fun w3 vs hI3 he3 hL3 hlen hrest => ?_) (fun w3 vs hI3 he3 hlt hL3 heq => ?_)
          (fun w3 vs rest hI3 he3 hlt hL3 heq => ?_)
        · obtain ⟨rest, hrest⟩ := hrest
          exact safe_ret hI3 hL3 fun w4 hI4 he4 hL4 =>
            ⟨_, hL4, b, it, rfl, hf, hh, hb, vs, rest, hlen, hrest, rfl⟩
        · exact ⟨_, _, hL3, b, .inr (.inl ⟨it, hf, hh, hb, by omega, vs, rfl, hlt, fun _ => .rfl,
            .inr (.inl ⟨rfl, by have := hc2 (by omega); have := he3.cap; omega, heq⟩)⟩)⟩
        · exact ⟨_, _, hL3, b, .inr (.inl ⟨it, hf, hh, hb, by omega, vs, rfl, hlt, fun _ => .rfl,
            .inr (.inr ⟨rfl, by have := hc2 (by omega); have := he3.cap; omega, rest, heq⟩)⟩)⟩
      · simp only [hh, if_false, Prog.panic_bind]
        exact safe_panic hI2 hL2 fun w3 hI3 he3 hL3 =>
          ⟨_, _, hL3, b, .inr (.inr ⟨hb, rfl, fun _ => .rfl,
            fun h0 => Nat.le_trans (hc2 h0) he3.cap, .inr ⟨rfl, it, hf, hh⟩⟩)⟩
  · exact ⟨_, _, hL2, b, .inl ⟨rfl, hb, hn, [], rfl, hn, fun _ => .rfl, .inl ⟨rfl, rfl, hm⟩⟩⟩

/-! ## vector queries -/

theorem noPos_lt {w : World α} : ∀ j, noPos j → j < w.mem.written := fun _ h => h.elim

theorem opSafe_len : OpSafe (.len : Op α β) := by
  intro σ₀ c w hI hL _ _
  simp only [Op.prog, Prog.map_eq]
  refine safe_len (looks_ctx _ _ _) hI hL noPos_lt fun n w1 hI1 hr1 hL1 hlen => ?_
  exact safe_ret hI1 hL1 fun w2 hI2 he2 hL2 => ⟨_, hL2, n, hlen.later he2, rfl, rfl⟩

theorem opSafe_isEmpty : OpSafe (.isEmpty : Op α β) := by
  intro σ₀ c w hI hL _ _
  simp only [Op.prog, CVec.isEmpty, Prog.map_eq, Prog.bind_eq, Prog.bind_assoc, Prog.pure_eq, Prog.ret_bind]
  refine safe_len (looks_ctx _ _ _) hI hL noPos_lt fun n w1 hI1 hr1 hL1 hlen => ?_
  exact safe_ret hI1 hL1 fun w2 hI2 he2 hL2 => ⟨_, hL2, n, hlen.later he2, rfl, rfl⟩

theorem opSafe_capacity : OpSafe (.capacity : Op α β) := by
  intro σ₀ c w hI hL _ _
  simp only [Op.prog, CVec.capacity, Prog.map_eq]
  refine safe_capLoad hI hL fun w1 hI1 hr1 hL1 => ?_
  exact safe_ret hI1 hL1 fun w2 hI2 he2 hL2 => ⟨_, hL2, _, hr1.ev.cap, he2.cap, rfl, rfl⟩

theorem opSafe_maximumCapacity : OpSafe (.maximumCapacity : Op α β) := by
  intro σ₀ c w hI hL _ _
  simp only [Op.prog, CVec.maximumCapacity, Prog.map_eq]
  refine safe_maxCapLoad hI hL fun w1 hI1 hr1 hL1 => ?_
  refine safe_ret hI1 hL1 fun w2 hI2 he2 hL2 => ⟨_, hL2, ?_, rfl⟩
  rw [hL1.maxCap, hL2.maxCap]

theorem opSafe_get (i : Nat) : OpSafe (.get i : Op α β) := by
  intro σ₀ c w hI hL _ _
  simp only [Op.prog, Prog.map_eq]
  refine safe_get (looks_ctx _ _ _) hI hL noPos_lt (fun n w1 hI1 hr1 hL1 hlen hi => ?_)
    (fun n w1 hI1 hr1 hL1 hlen hi => ?_)
  · exact safe_ret hI1 hL1 fun w2 hI2 he2 hL2 => ⟨_, hL2, n, hlen.later he2, by simp [hi], rfl⟩
  · exact safe_ret hI1 hL1 fun w2 hI2 he2 hL2 => ⟨_, hL2, n, hlen.later he2, by simp; omega, rfl⟩

theorem opSafe_index (i : Nat) : OpSafe (.index i : Op α β) := by
  intro σ₀ c w hI hL _ _
  simp only [Op.prog, CVec.index, Prog.map_eq, Prog.bind_eq, Prog.bind_assoc]
  refine safe_get (looks_ctx _ _ _) hI hL noPos_lt (fun n w1 hI1 hr1 hL1 hlen hi => ?_)
    (fun n w1 hI1 hr1 hL1 hlen hi => ?_)
  · exact safe_ret hI1 hL1 fun w2 hI2 he2 hL2 => ⟨_, hL2, n, hlen.later he2, hi, rfl, rfl⟩
  · exact safe_panic hI1 hL1 fun w2 hI2 he2 hL2 =>
      ⟨_, _, hL2, fun _ h => h, rfl, rfl, n, hlen.later he2, hi⟩

theorem opSafe_getCloned (i : Nat) : OpSafe (.getCloned i : Op α β) := by
  intro σ₀ c w hI hL _ _
  simp only [Op.prog, CVec.getCloned, Prog.map_eq, Prog.bind_eq, Prog.bind_assoc]
  refine safe_reservedLen hI hL fun n w1 hI1 hr1 hL1 hnc _ hnone => ?_
  by_cases hi : i < n
  · simp only [hi, if_true, Prog.bind_assoc]
    refine safe_colGet' hI1 hL1 (by omega) fun w2 hI2 hr2 hL2 => ?_
    have r02 := hr1.trans hr2
    refine safe_cloneIntoOption hI2 hL2 (by have := hr2.ev.cap; omega) (fun v => ⟨rfl, .inr ⟨rfl, rfl⟩⟩) ?_ ?_
    · intro w3 v hI3 he3 hL3
      exact safe_ret hI3 hL3 fun w4 hI4 he4 hL4 => ⟨_, hL4, .inl ⟨v, rfl, rfl⟩⟩
    · intro w3 hI3 he3 hL3 hv
      exact safe_ret hI3 hL3 fun w4 hI4 he4 hL4 => ⟨_, hL4, .inr ⟨rfl, rfl, none_of_evolves r02.ev hv⟩⟩
  · simp only [hi, if_false, Prog.pure_eq, Prog.ret_bind]
    exact safe_ret hI1 hL1 fun w2 hI2 he2 hL2 => ⟨_, hL2, .inr ⟨rfl, rfl, hnone i (by omega)⟩⟩

/-- `iter`, followed by a loop over the positions. -/
theorem safe_iter {X : Ctx α} {ρ : Type} {Q : ρ → World α → Prop} {QP : PanicKind → World α → Prop}
    {f : List Nat → Prog α ρ} (hA : Looks X) (hI : Inv X.σ₀ w) (hL : Loc X.c w noPos noPos [] False w)
    (h : ∀ n w1, Inv X.σ₀ w1 → Rely X.c w w1 → Loc X.c w noPos noPos [] False w1 → LenOK X.c w n w1 →
      (∀ i, 0 ≤ i → i < 0 + n → (w1.spec.val i).isSome) → Safe X Q QP (f (positions 0 n)) w1) :
    Safe X Q QP (CVec.iter.bind f) w := by
  simp only [CVec.iter, Prog.bind_eq, Prog.bind_assoc, Prog.pure_eq, Prog.ret_bind]
  refine safe_len hA hI hL noPos_lt fun n w1 hI1 hr1 hL1 hlen => ?_
  exact h n w1 hI1 hr1 hL1 hlen (fun i _ hi => hlen.pub i (by omega))

theorem safe_slice {X : Ctx α} {ρ : Type} {Q : ρ → World α → Prop} {QP : PanicKind → World α → Prop}
    {w0 : World α} {rg : Rng} {f : Slc → Prog α ρ} (hA : Looks X) (hI : Inv X.σ₀ w)
    (hL : Loc X.c w0 noPos noPos [] False w)
    (h : ∀ n w1, Inv X.σ₀ w1 → Rely X.c w w1 → Loc X.c w0 noPos noPos [] False w1 → LenOK X.c w n w1 →
      Safe X Q QP (f ⟨(rangeLimits rg n).1, (rangeLimits rg n).2 - (rangeLimits rg n).1⟩) w1) :
    Safe X Q QP ((CVec.slice rg).bind f) w := by
  simp only [CVec.slice, Prog.bind_eq, Prog.bind_assoc, Prog.pure_eq, Prog.ret_bind]
  exact safe_len hA hI hL noPos_lt fun n w1 hI1 hr1 hL1 hlen => h n w1 hI1 hr1 hL1 hlen

theorem rangeLimits_co (a b n : Nat) : rangeLimits (.co a b) n = (min a (min b n), min b n) := rfl
theorem rangeLimits_from (a n : Nat) : rangeLimits (.from a) n = (min a n, n) := by
  simp [rangeLimits, Rng.from]

theorem LenOK.le {c : Cid} {w0 w w1 : World α} {n m : Nat} (h : LenOK c w0 n w) (h' : LenOK c w m w1) :
    n ≤ m := Nat.le_trans h.written h'.low

theorem safe_asSlice {X : Ctx α} {ρ : Type} {Q : ρ → World α → Prop} {QP : PanicKind → World α → Prop}
    {f : Slc → Prog α ρ} (hA : Looks X) (hI : Inv X.σ₀ w) (hL : Loc X.c w noPos noPos [] False w)
    (h : ∀ n w1, Inv X.σ₀ w1 → Rely X.c w w1 → Loc X.c w noPos noPos [] False w1 → LenOK X.c w n w1 →
      (∀ i, 0 ≤ i → i < 0 + n → (w1.spec.val i).isSome) → Safe X Q QP (f ⟨0, n⟩) w1) :
    Safe X Q QP (CVec.asSlice.bind f) w := by
  simp only [CVec.asSlice, Prog.bind_eq, Prog.bind_assoc, Prog.pure_eq, Prog.ret_bind]
  refine safe_len hA hI hL noPos_lt fun n w1 hI1 hr1 hL1 hlen => ?_
  refine safe_slice hA hI1 hL1 fun m w2 hI2 hr2 hL2 hlen2 => ?_
  have hle := hlen.le hlen2
  have hl := hlen.later hr2.ev
  have := h n w2 hI2 (hr1.trans hr2) hL2 hl (fun i _ hi => hl.pub i (by omega))
  rw [rangeLimits_co]
  simpa [Nat.min_eq_left hle] using this

theorem opSafe_iter : OpSafe (.iter : Op α β) := by
  intro σ₀ c w hI hL _ _
  simp only [Op.prog, Prog.map_eq]
  refine safe_iter (looks_ctx _ _ _) hI hL fun n w1 hI1 hr1 hL1 hlen hp => ?_
  exact safe_ret hI1 hL1 fun w2 hI2 he2 hL2 =>
    ⟨_, hL2, n, hlen.later he2, by simp [positions, List.range_eq_range'], rfl⟩

theorem opSafe_iterCloned : OpSafe (.iterCloned : Op α β) := by
  intro σ₀ c w hI hL _ _
  simp only [Op.prog, CVec.iterCloned, Prog.map_eq, Prog.bind_eq, Prog.bind_assoc]
  refine safe_iter (looks_ctx _ _ _) hI hL fun n w1 hI1 hr1 hL1 hlen hp => ?_
  refine safe_loopCloned n 0 hI1 hL1 hp (fun _ _ _ _ _ => ⟨rfl, .inr trivial⟩) fun w2 vs hI2 he2 hL2 hvs => ?_
  exact safe_ret hI2 hL2 fun w3 hI3 he3 hL3 => ⟨_, hL3, n, vs, hlen.later (he2.trans he3), rfl, hvs, rfl⟩

theorem opSafe_map (f : α → Option β) : OpSafe (.map f : Op α β) := by
  intro σ₀ c w hI hL _ _
  simp only [Op.prog, CVec.map, Prog.map_eq, Prog.bind_eq, Prog.bind_assoc]
  refine safe_iter (looks_ctx _ _ _) hI hL fun n w1 hI1 hr1 hL1 hlen hp => ?_
  refine safe_loopMap n 0 hI1 hL1 hp (fun _ _ _ _ _ => ⟨rfl, .inr trivial⟩)
    (fun w2 vs bs hI2 he2 hL2 hvs hbs => ?_) (fun w2 vs x hI2 he2 hL2 hvs hx hall => ?_)
  · exact safe_ret hI2 hL2 fun w3 hI3 he3 hL3 =>
      ⟨_, hL3, n, bs, hlen.later (he2.trans he3), rfl, vs, hvs, rfl, hbs⟩
  · exact ⟨_, _, hL2, fun _ h => h, rfl, n, hlen.later he2, vs, x, hvs, rfl, hx, hall⟩

theorem opSafe_filter (f : α → Option Bool) : OpSafe (.filter f : Op α β) := by
  intro σ₀ c w hI hL _ _
  simp only [Op.prog, CVec.filter, Prog.map_eq, Prog.bind_eq, Prog.bind_assoc]
  refine safe_iter (looks_ctx _ _ _) hI hL fun n w1 hI1 hr1 hL1 hlen hp => ?_
  refine safe_loopFilter n 0 hI1 hL1 hp (fun _ _ _ _ _ => ⟨rfl, .inr trivial⟩)
    (fun w2 vs hI2 he2 hL2 hvs hall => ?_) (fun w2 vs x hI2 he2 hL2 hvs hx hall => ?_)
  · exact safe_ret hI2 hL2 fun w3 hI3 he3 hL3 =>
      ⟨_, hL3, n, _, hlen.later (he2.trans he3), rfl, vs, hvs, rfl, hall, rfl⟩
  · exact ⟨_, _, hL2, fun _ h => h, rfl, n, hlen.later he2, vs, x, hvs, rfl, hx, hall⟩

theorem opSafe_fold (f : β → α → Option β) (init : β) : OpSafe (.fold f init : Op α β) := by
  intro σ₀ c w hI hL _ _
  simp only [Op.prog, CVec.fold, Prog.map_eq, Prog.bind_eq, Prog.bind_assoc]
  refine safe_iter (looks_ctx _ _ _) hI hL fun n w1 hI1 hr1 hL1 hlen hp => ?_
  refine safe_loopFold n 0 init hI1 hL1 hp (fun _ _ _ _ _ => ⟨rfl, .inr trivial⟩)
    (fun w2 vs b hI2 he2 hL2 hvs hb => ?_) (fun w2 vs x agg hI2 he2 hL2 hvs hagg hx => ?_)
  · exact safe_ret hI2 hL2 fun w3 hI3 he3 hL3 =>
      ⟨_, hL3, n, b, hlen.later (he2.trans he3), rfl, vs, hvs, rfl, hb⟩
  · exact ⟨_, _, hL2, fun _ h => h, rfl, n, hlen.later he2, vs, x, agg, hvs, rfl, hagg, hx⟩

theorem opSafe_visit (f : β → α → Option (β × Bool)) (init : β) : OpSafe (.visit f init : Op α β) := by
  intro σ₀ c w hI hL _ _
  simp only [Op.prog, CVec.visit, Prog.map_eq, Prog.bind_eq, Prog.bind_assoc]
  refine safe_iter (looks_ctx _ _ _) hI hL fun n w1 hI1 hr1 hL1 hlen hp => ?_
  refine safe_loopVisit n 0 init hI1 hL1 hp (fun _ _ _ _ _ => ⟨rfl, .inr trivial⟩)
    (fun w2 vs b go hI2 he2 hL2 hb hvs hgo => ?_) (fun w2 vs x agg hI2 he2 hL2 hvs hagg hx => ?_)
  · exact safe_ret hI2 hL2 fun w3 hI3 he3 hL3 =>
      ⟨_, hL3, n, b, hlen.later (he2.trans he3), rfl, vs, go, rfl, hb, hvs, hgo⟩
  · exact ⟨_, _, hL2, fun _ h => h, rfl, n, hlen.later he2, vs, x, agg, hvs, rfl, hagg, hx⟩

theorem opSafe_reduce (f : α → α → Option α) : OpSafe (.reduce f : Op α β) := by
  intro σ₀ c w hI hL _ _
  simp only [Op.prog, CVec.reduce, Prog.map_eq, Prog.bind_eq, Prog.bind_assoc]
  refine safe_asSlice (looks_ctx _ _ _) hI hL fun n w1 hI1 hr1 hL1 hlen hp => ?_
  refine safe_loopReduce n 0 hI1 hL1 hp (fun _ _ _ _ _ => ⟨rfl, .inr trivial⟩) (fun w2 hI2 he2 hL2 hn => ?_)
    (fun w2 v vs b hI2 he2 hL2 hvs hb => ?_) (fun w2 v vs x agg hI2 he2 hL2 hvs hagg hx => ?_)
  · exact safe_ret hI2 hL2 fun w3 hI3 he3 hL3 =>
      ⟨_, hL3, n, none, hlen.later (he2.trans he3), rfl, .inl ⟨hn, rfl, rfl⟩⟩
  · exact safe_ret hI2 hL2 fun w3 hI3 he3 hL3 =>
      ⟨_, hL3, n, some b, hlen.later (he2.trans he3), rfl, .inr ⟨v, vs, b, hvs, rfl, hb, rfl⟩⟩
  · exact ⟨_, _, hL2, fun _ h => h, rfl, n, hlen.later he2, v, vs, x, agg, hvs, rfl, hagg, hx⟩

theorem opSafe_indexOf (veq : α → α → Bool) (t : α) : OpSafe (.indexOf veq t : Op α β) := by
  intro σ₀ c w hI hL _ _
  simp only [Op.prog, CVec.indexOf, Prog.map_eq, Prog.bind_eq, Prog.bind_assoc]
  refine safe_iter (looks_ctx _ _ _) hI hL fun n w1 hI1 hr1 hL1 hlen hp => ?_
  refine safe_loopPosition n 0 0 hI1 hL1 hp (fun _ _ _ _ _ => ⟨rfl, .inr trivial⟩)
    (fun w2 vs hI2 he2 hL2 hvs hall => ?_) (fun w2 vs x hI2 he2 hL2 hvs hall hx => ?_)
  · exact safe_ret hI2 hL2 fun w3 hI3 he3 hL3 =>
      ⟨_, hL3, n, none, hlen.later (he2.trans he3), rfl, .inl ⟨vs, hvs, rfl, hall, rfl⟩⟩
  · exact safe_ret hI2 hL2 fun w3 hI3 he3 hL3 =>
      ⟨_, hL3, n, _, hlen.later (he2.trans he3), rfl, .inr ⟨vs, x, hvs, rfl, hall, hx, by simp⟩⟩

theorem opSafe_contains (veq : α → α → Bool) (t : α) : OpSafe (.contains veq t : Op α β) := by
  intro σ₀ c w hI hL _ _
  simp only [Op.prog, CVec.contains, CVec.indexOf, Prog.map_eq, Prog.bind_eq, Prog.bind_assoc, Prog.pure_eq,
    Prog.ret_bind]
  refine safe_iter (looks_ctx _ _ _) hI hL fun n w1 hI1 hr1 hL1 hlen hp => ?_
  refine safe_loopPosition n 0 0 hI1 hL1 hp (fun _ _ _ _ _ => ⟨rfl, .inr trivial⟩)
    (fun w2 vs hI2 he2 hL2 hvs hall => ?_) (fun w2 vs x hI2 he2 hL2 hvs hall hx => ?_)
  · exact safe_ret hI2 hL2 fun w3 hI3 he3 hL3 =>
      ⟨_, hL3, n, none, hlen.later (he2.trans he3), rfl, .inl ⟨vs, hvs, rfl, hall, rfl⟩⟩
  · exact safe_ret hI2 hL2 fun w3 hI3 he3 hL3 =>
      ⟨_, hL3, n, some _, hlen.later (he2.trans he3), rfl, .inr ⟨vs, x, hvs, rfl, hall, hx, by simp⟩⟩

theorem opSafe_cloneToVec : OpSafe (.cloneToVec : Op α β) := by
  intro σ₀ c w hI hL _ _
  simp only [Op.prog, CVec.cloneToVec, Prog.map_eq, Prog.bind_eq, Prog.bind_assoc]
  refine safe_asSlice (looks_ctx _ _ _) hI hL fun n w1 hI1 hr1 hL1 hlen hp => ?_
  refine safe_loopCloned n 0 hI1 hL1 hp (fun _ _ _ _ _ => ⟨rfl, .inr trivial⟩) fun w2 vs hI2 he2 hL2 hvs => ?_
  exact safe_ret hI2 hL2 fun w3 hI3 he3 hL3 => ⟨_, hL3, n, vs, hlen.later (he2.trans he3), rfl, hvs, rfl⟩

theorem opSafe_eqList (veq : α → α → Option Bool) (ts : List α) : OpSafe (.eqList veq ts : Op α β) := by
  intro σ₀ c w hI hL _ _
  simp only [Op.prog, CVec.eqList, Prog.map_eq, Prog.bind_eq, Prog.bind_assoc]
  refine safe_iter (looks_ctx _ _ _) hI hL fun n w1 hI1 hr1 hL1 hlen hp => ?_
  refine safe_loopEqList n 0 ts hI1 hL1 hp (fun _ _ _ _ _ => ⟨rfl, .inr trivial⟩)
    (fun w2 d' b hI2 he2 hL2 ho => ?_) (fun w2 d' hI2 he2 hL2 ho => ?_)
  · exact safe_ret hI2 hL2 fun w3 hI3 he3 hL3 => ⟨_, hL3, n, b, hlen.later (he2.trans he3), rfl, ho⟩
  · exact ⟨_, _, hL2, fun _ h => h, rfl, n, hlen.later he2, ho⟩

theorem opSafe_debug (sh : α → String) : OpSafe (.debug sh : Op α β) := by
  intro σ₀ c w hI hL _ _
  simp only [Op.prog, CVec.debug, Prog.map_eq, Prog.bind_eq, Prog.bind_assoc]
  refine safe_iter (looks_ctx _ _ _) hI hL fun n w1 hI1 hr1 hL1 hlen hp => ?_
  refine safe_loopDebug n 0 hI1 hL1 hp (fun _ _ _ _ _ => ⟨rfl, .inr trivial⟩) fun w2 vs hI2 he2 hL2 hvs => ?_
  exact safe_ret hI2 hL2 fun w3 hI3 he3 hL3 => ⟨_, hL3, n, vs, hlen.later (he2.trans he3), rfl, hvs, rfl⟩

theorem opSafe_slice (rg : Rng) : OpSafe (.slice rg : Op α β) := by
  intro σ₀ c w hI hL _ _
  simp only [Op.prog, Prog.map_eq]
  refine safe_slice (looks_ctx _ _ _) hI hL fun n w1 hI1 hr1 hL1 hlen => ?_
  exact safe_ret hI1 hL1 fun w2 hI2 he2 hL2 => ⟨_, hL2, n, hlen.later he2, rfl, rfl⟩

theorem opSafe_asSlice : OpSafe (.asSlice : Op α β) := by
  intro σ₀ c w hI hL _ _
  simp only [Op.prog, Prog.map_eq]
  refine safe_asSlice (looks_ctx _ _ _) hI hL fun n w1 hI1 hr1 hL1 hlen hp => ?_
  exact safe_ret hI1 hL1 fun w2 hI2 he2 hL2 => ⟨_, hL2, n, hlen.later he2, rfl, rfl⟩

theorem opSafe_splitAt (mid : Nat) : OpSafe (.splitAt mid : Op α β) := by
  intro σ₀ c w hI hL _ _
  have hA := looks_ctx (.splitAt mid : Op α β) σ₀ c
  simp only [Op.prog, CVec.splitAt, Prog.map_eq, Prog.bind_eq, Prog.bind_assoc]
  refine safe_len hA hI hL noPos_lt fun n w1 hI1 hr1 hL1 hlen => ?_
  by_cases hm : mid ≤ n
  · simp only [hm, if_true, Prog.bind_assoc]
    refine safe_slice hA hI1 hL1 fun m w2 hI2 hr2 hL2 hlen2 => ?_
    refine safe_slice hA hI2 hL2 fun m' w3 hI3 hr3 hL3 hlen3 => ?_
    simp only [Prog.pure_eq, Prog.ret_bind]
    have h1 := hlen.le hlen2
    have h2 := hlen2.le hlen3
    refine safe_ret hI3 hL3 fun w4 hI4 he4 hL4 =>
      ⟨_, hL4, m', (hlen3.earlier (hr1.trans hr2).ev).later he4, by omega, ?_, rfl⟩
    rw [rangeLimits_co, rangeLimits_from]
    simp [Nat.min_eq_left (show mid ≤ m by omega), Nat.min_eq_left (show mid ≤ m' by omega)]
  · simp only [hm, if_false, Prog.panic_bind]
    exact safe_panic hI1 hL1 fun w2 hI2 he2 hL2 =>
      ⟨_, _, hL2, fun _ h => h, rfl, rfl, n, hlen.later he2, by omega⟩

theorem opSafe_splitFirst : OpSafe (.splitFirst : Op α β) := by
  intro σ₀ c w hI hL _ _
  have hA := looks_ctx (.splitFirst : Op α β) σ₀ c
  simp only [Op.prog, CVec.splitFirst, Prog.map_eq, Prog.bind_eq, Prog.bind_assoc]
  refine safe_get hA hI hL noPos_lt (fun n w1 hI1 hr1 hL1 hlen hi => ?_) (fun n w1 hI1 hr1 hL1 hlen hi => ?_)
  · simp only [Prog.bind_assoc]
    refine safe_len hA hI1 hL1 noPos_lt fun m w2 hI2 hr2 hL2 hlen2 => ?_
    refine safe_slice hA hI2 hL2 fun m' w3 hI3 hr3 hL3 hlen3 => ?_
    simp only [Prog.pure_eq, Prog.ret_bind]
    have h1 := hlen.le hlen2
    have h2 := hlen2.le hlen3
    refine safe_ret hI3 hL3 fun w4 hI4 he4 hL4 =>
      ⟨_, hL4, rfl, .inr ⟨m, (hlen2.earlier hr1.ev).later (hr3.ev.trans he4), by omega, ?_⟩⟩
    rw [rangeLimits_co]
    simp [Nat.min_eq_left (show m ≤ m' by omega), Nat.min_eq_left (show 1 ≤ m by omega)]
  · simp only [Prog.pure_eq, Prog.ret_bind]
    have : n = 0 := by omega
    subst this
    exact safe_ret hI1 hL1 fun w2 hI2 he2 hL2 => ⟨_, hL2, rfl, .inl ⟨hlen.later he2, rfl⟩⟩

theorem opSafe_splitLast : OpSafe (.splitLast : Op α β) := by
  intro σ₀ c w hI hL _ _
  have hA := looks_ctx (.splitLast : Op α β) σ₀ c
  simp only [Op.prog, CVec.splitLast, CVec.index, Prog.map_eq, Prog.bind_eq, Prog.bind_assoc]
  refine safe_len hA hI hL noPos_lt fun n w1 hI1 hr1 hL1 hlen => ?_
  by_cases hn : n = 0
  · subst hn
    simp only [if_true, Prog.pure_eq, Prog.ret_bind]
    exact safe_ret hI1 hL1 fun w2 hI2 he2 hL2 => ⟨_, hL2, rfl, .inl ⟨hlen.later he2, rfl⟩⟩
  · simp only [hn, if_false, Prog.bind_assoc]
    refine safe_slice hA hI1 hL1 fun m w2 hI2 hr2 hL2 hlen2 => ?_
    have h1 := hlen.le hlen2
    refine safe_get hA hI2 hL2 noPos_lt (fun m' w3 hI3 hr3 hL3 hlen3 hi => ?_)
      (fun m' w3 hI3 hr3 hL3 hlen3 hi => ?_)
    · simp only [Prog.pure_eq, Prog.ret_bind]
      refine safe_ret hI3 hL3 fun w4 hI4 he4 hL4 =>
        ⟨_, hL4, rfl, .inr ⟨n, hlen.later (hr2.ev.trans (hr3.ev.trans he4)), by omega, ?_⟩⟩
      rw [rangeLimits_co]
      simp [Nat.min_eq_left (show n - 1 ≤ m by omega)]
    · have h2 := hlen2.le hlen3
      omega

theorem numChunks_bound {n k i : Nat} (hk : 0 < k) (hi : i < numChunks n k) :
    ∃ b, chunkRange n k i = .co (i * k) b ∧ i * k < b ∧ b ≤ n ∧
      (b = i * k + k ∨ (i + 1 = numChunks n k ∧ b = n)) := by
  have hdm := Nat.div_add_mod n k
  have hmod := Nat.mod_lt n hk
  have hrem : n - n / k * k = n % k := by rw [Nat.mul_comm]; omega
  simp only [numChunks, hrem] at hi
  simp only [chunkRange, numChunks, hrem]
  have hmul : i + 1 ≤ n / k → (i + 1) * k ≤ n / k * k := fun h => Nat.mul_le_mul_right _ h
  have hmul' : (n / k) * k = k * (n / k) := Nat.mul_comm _ _
  have hs : (i + 1) * k = i * k + k := by rw [Nat.add_mul, Nat.one_mul]
  by_cases hr : n % k > 0
  · simp only [hr, if_true] at hi ⊢
    by_cases hl : i = n / k
    · subst hl
      simp only [Nat.add_sub_cancel, and_self, if_true]
      exact ⟨_, rfl, by omega, by omega, .inr ⟨trivial, by omega⟩⟩
    · rw [if_neg (by omega)]
      have := hmul (by omega)
      exact ⟨_, rfl, by omega, by omega, .inl rfl⟩
  · simp only [hr, if_false] at hi ⊢
    have := hmul (by omega)
    rw [if_neg (by simp)]
    exact ⟨_, rfl, by omega, by omega, .inl rfl⟩

theorem safe_chunkLoop {X : Ctx α} {ρ : Type} {Q : ρ → World α → Prop} {QP : PanicKind → World α → Prop}
    {w0 : World α} {n k : Nat} (hA : Looks X) (hk : 0 < k) :
    ∀ (is : List Nat) {w : World α} {f : List Slc → Prog α ρ}, Inv X.σ₀ w →
    Loc X.c w0 noPos noPos [] False w → LenOK X.c w0 n w → (∀ i ∈ is, i < numChunks n k) →
    (∀ w1, Inv X.σ₀ w1 → Evolves w w1 → Loc X.c w0 noPos noPos [] False w1 →
      Safe X Q QP (f (is.map fun i => (⟨0, n⟩ : Slc).slice (chunkRange n k i))) w1) →
    Safe X Q QP ((CVec.chunkLoop n k is).bind f) w := by
  intro is
  induction is with
  | nil =>
    intro w f hI hL hlen hi h
    simp only [CVec.chunkLoop, Prog.pure_eq, Prog.ret_bind]
    exact h w hI (.refl _) hL
  | cons i is ih =>
    intro w f hI hL hlen hi h
    simp only [CVec.chunkLoop, Prog.bind_eq, Prog.bind_assoc, Prog.pure_eq]
    refine safe_slice hA hI hL fun m w1 hI1 hr1 hL1 hlen1 => ?_
    refine ih hI1 hL1 (hlen.later hr1.ev) (fun j hj => hi j (by simp [hj])) fun w2 hI2 he2 hL2 => ?_
    simp only [Prog.ret_bind]
    have := h w2 hI2 (hr1.ev.trans he2) hL2
    obtain ⟨b, hb, hb1, hb2, _⟩ := numChunks_bound hk (hi i (by simp))
    have hnm := hlen.le hlen1
    have e : (⟨0, n⟩ : Slc).slice (chunkRange n k i) = ⟨(rangeLimits (chunkRange n k i) m).1,
        (rangeLimits (chunkRange n k i) m).2 - (rangeLimits (chunkRange n k i) m).1⟩ := by
      simp only [Slc.slice, hb, rangeLimits_co, Nat.min_eq_left hb2, Nat.min_eq_left (show b ≤ m by omega),
        Nat.min_eq_left (show i * k ≤ b by omega), Nat.zero_add]
    rwa [List.map_cons, e] at this

theorem opSafe_chunks (k : Nat) : OpSafe (.chunks k : Op α β) := by
  intro σ₀ c w hI hL _ _
  have hA := looks_ctx (.chunks k : Op α β) σ₀ c
  simp only [Op.prog, CVec.chunks, Prog.map_eq]
  by_cases hk : 0 < k
  · simp only [hk, if_true, Prog.bind_eq, Prog.bind_assoc]
    refine safe_len hA hI hL noPos_lt fun n w1 hI1 hr1 hL1 hlen => ?_
    refine safe_chunkLoop hA hk _ hI1 hL1 hlen (fun i hi => by simpa using hi) fun w2 hI2 he2 hL2 => ?_
    exact safe_ret hI2 hL2 fun w3 hI3 he3 hL3 => ⟨_, hL3, n, hlen.later (he2.trans he3), hk, rfl, rfl⟩
  · simp only [hk, if_false, Prog.panic_bind]
    exact safe_panic hI hL fun w2 hI2 he2 hL2 => ⟨_, _, hL2, fun _ h => h, rfl, rfl, by omega⟩

theorem safe_vecGetRaw {X : Ctx α} {ρ : Type} {Q : ρ → World α → Prop} {QP : PanicKind → World α → Prop}
    {i : Nat} {o : MOrd} {f : Option Nat → Prog α ρ} (hA : Looks X) (hI : Inv X.σ₀ w)
    (hL : Loc X.c w noPos noPos [] False w)
    (hs : ∀ w1, Inv X.σ₀ w1 → Evolves w w1 → Loc X.c w noPos noPos [] False w1 → (w1.spec.val i).isSome →
      Safe X Q QP (f (some i)) w1)
    (hn : ∀ w1, Inv X.σ₀ w1 → Evolves w w1 → Loc X.c w noPos noPos [] False w1 →
      (w.spec.val i = none ∨ ∃ d', Ev.busy X.c i d' ∈ w1.trace) → Safe X Q QP (f none) w1) :
    Safe X Q QP ((CVec.getRaw o i).bind f) w := by
  simp only [CVec.getRaw, Prog.bind_eq, Prog.bind_assoc]
  refine safe_reservedLen hI hL fun n w1 hI1 hr1 hL1 hnc _ hnone => ?_
  by_cases hi : i < n
  · simp only [hi, if_true, Prog.bind_assoc]
    refine safe_colGet' hI1 hL1 (by omega) fun w2 hI2 hr2 hL2 => ?_
    have r02 := hr1.trans hr2
    refine safe_getRaw hA hI2 hL2 (by have := hr2.ev.cap; omega) ?_ ?_
    · intro w3 hI3 hr3 hL3 hp
      exact hs w3 hI3 (r02.trans hr3).ev hL3 hp
    · intro w3 hI3 hr3 hL3 hor
      refine hn w3 hI3 (r02.trans hr3).ev hL3 ?_
      rcases hor with hv | hb
      · exact .inl (none_of_evolves r02.ev hv)
      · exact .inr hb
  · simp only [hi, if_false, Prog.pure_eq, Prog.ret_bind]
    exact hn w1 hI1 hr1.ev hL1 (.inl (hnone i (by omega)))

theorem opSafe_getRaw (o : MOrd) (i : Nat) : OpSafe (.getRaw o i : Op α β) := by
  intro σ₀ c w hI hL _ _
  simp only [Op.prog, Prog.map_eq]
  refine safe_vecGetRaw (looks_ctx _ _ _) hI hL (fun w1 hI1 he1 hL1 hp => ?_) (fun w1 hI1 he1 hL1 hor => ?_)
  · exact safe_ret hI1 hL1 fun w2 hI2 he2 hL2 => ⟨_, hL2, rfl, .inl ⟨rfl, he2.pub _ hp⟩⟩
  · refine safe_ret hI1 hL1 fun w2 hI2 he2 hL2 => ⟨_, hL2, rfl, .inr ⟨rfl, ?_⟩⟩
    exact hor.imp id fun ⟨d', h⟩ => ⟨d', he2.trace.subset h⟩

theorem RawOK.later {c : Cid} {w0 w w' : World α} {a n : Nat} {l : List Nat} (h : RawOK c w0 a n l w)
    (he : Evolves w w') : RawOK c w0 a n l w' where
  sorted := h.sorted
  mem := fun i hi => ⟨(h.mem i hi).1, (h.mem i hi).2.1, he.pub _ (h.mem i hi).2.2⟩
  missing := fun i h1 h2 h3 => (h.missing i h1 h2 h3).imp id fun ⟨d', h⟩ => ⟨d', he.trace.subset h⟩

theorem RawOK.earlier {c : Cid} {w00 w0 w : World α} {a n : Nat} {l : List Nat} (h : RawOK c w0 a n l w)
    (he : Evolves w00 w0) : RawOK c w00 a n l w where
  sorted := h.sorted
  mem := h.mem
  missing := fun i h1 h2 h3 => (h.missing i h1 h2 h3).imp (none_of_evolves he) id

theorem opSafe_iterRef (o : MOrd) : OpSafe (.iterRef o : Op α β) := by
  intro σ₀ c w hI hL _ _
  simp only [Op.prog, CVec.iterRef, Prog.map_eq, Prog.bind_eq, Prog.bind_assoc]
  refine safe_reservedLen hI hL fun n w1 hI1 hr1 hL1 hnc _ hnone => ?_
  refine safe_loopRaw (looks_ctx _ _ _) n 0 hI1 hL1 (by omega) fun w2 l hI2 he2 hL2 hraw => ?_
  exact safe_ret hI2 hL2 fun w3 hI3 he3 hL3 =>
    ⟨_, hL3, rfl, n, l, rfl, (hraw.earlier hr1.ev).later he3, hnone⟩

/-! ## mutation through the vector -/

theorem opSafe_swap (m : MutMode) (i j : Nat) : OpSafe (.swap m i j : Op α β) := by
  intro σ₀ c w hI hL _ _
  simp only [Op.prog, Prog.map_eq]
  refine safe_swap (looks_ctx _ _ _) (fun hij => ⟨rfl, .inr ⟨rfl, rfl, rfl, hij⟩⟩) hI hL
    (fun hm => by subst hm; exact ⟨rfl, rfl⟩) (fun n w1 hI1 he1 hL1 hij hlen hi hj => ?_)
    (fun w1 hI1 he1 hL1 hor => ?_)
  · exact safe_ret hI1 hL1 fun w2 hI2 he2 hL2 =>
      ⟨_, hL2, .inl ⟨n, hlen.later he2, hi, hj, hij, rfl, rfl⟩⟩
  · refine safe_ret hI1 hL1 fun w2 hI2 he2 hL2 => ⟨_, hL2, .inr ⟨rfl, rfl, ?_⟩⟩
    exact hor.imp (fun ⟨n, h1, h2⟩ => ⟨n, h1.later he2, h2⟩) id

theorem opSafe_fill (v : α) : OpSafe (.fill v : Op α β) := by
  intro σ₀ c w hI hL _ _
  simp only [Op.prog, CVec.fill, Prog.map_eq, Prog.bind_eq, Prog.bind_assoc]
  refine safe_iter (looks_ctx _ _ _) hI hL fun n w1 hI1 hr1 hL1 hlen hp => ?_
  refine safe_loopFill n 0 hI1 hL1 hp (fun _ _ _ _ _ => ⟨rfl, .inr rfl⟩) fun w2 olds hI2 he2 hL2 holds => ?_
  exact safe_ret hI2 hL2 fun w3 hI3 he3 hL3 => 
    ⟨_, hL3, n, hlen.later (he2.trans he3), rfl, ⟨olds, holds, rfl⟩, .of hI hI1 hL1 (he2.trans he3) hlen.pub⟩

theorem opSafe_fillWith (f : Nat → Option α) : OpSafe (.fillWith f : Op α β) := by
  intro σ₀ c w hI hL _ _
  simp only [Op.prog, CVec.fillWith, Prog.map_eq, Prog.bind_eq, Prog.bind_assoc]
  refine safe_iter (looks_ctx _ _ _) hI hL fun n w1 hI1 hr1 hL1 hlen hp => ?_
  refine safe_loopFillWith n 0 0 hI1 hL1 hp (fun _ i _ _ _ _ h => ⟨rfl, .inr (show f i = some _ by simpa using h)⟩)
    (fun w2 ps hI2 he2 hL2 hlenp hps => ?_) (fun w2 ps hI2 he2 hL2 hlenp hps hn => ?_)
  · exact safe_ret hI2 hL2 fun w3 hI3 he3 hL3 =>
      ⟨_, hL3, n, hlen.later (he2.trans he3), rfl, ⟨ps, hlenp, rfl, by simpa using hps⟩,
        .of hI hI1 hL1 (he2.trans he3) hlen.pub⟩
  · exact ⟨_, _, hL2, fun _ h => h, rfl, n, hlen.later he2, ⟨ps, hlenp, rfl, by simpa using hps,
      by simpa using hn⟩, .of hI hI1 hL1 he2 hlen.pub⟩

/-! ## elements -/

theorem opSafe_elCloned (e : Nat) : OpSafe (.elCloned e : Op α β) := by
  intro σ₀ c w hI hL hn _
  simp only [Op.prog, Prog.map_eq]
  refine safe_cloned hI hL (hn e (by simp [Op.needs])) (fun _ => ⟨rfl, .inr ⟨rfl, rfl⟩⟩) fun w1 v hI1 he1 hL1 => ?_
  exact safe_ret hI1 hL1 fun w2 hI2 he2 hL2 => ⟨_, hL2, v, rfl, rfl⟩

theorem opSafe_elMap (f : α → Option β) (e : Nat) : OpSafe (.elMap f e : Op α β) := by
  intro σ₀ c w hI hL hn _
  simp only [Op.prog, Prog.map_eq]
  refine safe_map hI hL (hn e (by simp [Op.needs])) (fun _ => ⟨rfl, .inr ⟨rfl, rfl⟩⟩)
    (fun w1 v b hI1 he1 hL1 hb => ?_) (fun w1 v hI1 he1 hL1 hb => ?_)
  · exact safe_ret hI1 hL1 fun w2 hI2 he2 hL2 => ⟨_, hL2, v, b, rfl, hb, rfl⟩
  · exact ⟨_, _, hL1, fun _ h => h, rfl, v, hb, rfl⟩

theorem opSafe_elReplace (e : Nat) (v : α) : OpSafe (.elReplace e v : Op α β) := by
  intro σ₀ c w hI hL hn _
  simp only [Op.prog, Prog.map_eq]
  refine safe_replace hI hL (hn e (by simp [Op.needs])) (fun _ => ⟨rfl, .inr ⟨rfl, rfl⟩⟩)
    (fun _ => ⟨rfl, .inr ⟨rfl, rfl, rfl⟩⟩) fun w1 old hI1 he1 hL1 => ?_
  exact safe_ret hI1 hL1 fun w2 hI2 he2 hL2 => ⟨_, hL2, old, rfl, rfl⟩

theorem opSafe_elSet (e : Nat) (v : α) : OpSafe (.elSet e v : Op α β) := by
  intro σ₀ c w hI hL hn _
  simp only [Op.prog, Prog.map_eq]
  refine safe_set hI hL (hn e (by simp [Op.needs]))
    (fun _ => ⟨rfl, .inr ⟨rfl, rfl, rfl⟩⟩) fun w1 old hI1 he1 hL1 => ?_
  exact safe_ret hI1 hL1 fun w2 hI2 he2 hL2 => ⟨_, hL2, old, rfl, rfl⟩

theorem opSafe_elUpdate (f : α → α × Bool) (e : Nat) : OpSafe (.elUpdate f e : Op α β) := by
  intro σ₀ c w hI hL hn _
  simp only [Op.prog, Prog.map_eq]
  refine safe_update hI hL (hn e (by simp [Op.needs])) (fun _ => ⟨rfl, .inr ⟨rfl, rfl⟩⟩)
    (fun _ => ⟨rfl, .inr ⟨rfl, rfl, rfl⟩⟩) (fun w1 old hI1 he1 hL1 hf => ?_) (fun w1 old hI1 he1 hL1 hf => ?_)
  · exact safe_ret hI1 hL1 fun w2 hI2 he2 hL2 => ⟨_, hL2, old, rfl, hf, rfl⟩
  · exact ⟨_, _, hL1, fun _ h => h, rfl, old, hf, rfl⟩

theorem opSafe_elEq (veq : α → α → Bool) (t : α) (e : Nat) : OpSafe (.elEq veq t e : Op α β) := by
  intro σ₀ c w hI hL hn _
  simp only [Op.prog, Elem.eqVal, Prog.map_eq]
  refine safe_map hI hL (hn e (by simp [Op.needs])) (fun _ => ⟨rfl, .inr ⟨rfl, rfl⟩⟩)
    (fun w1 v b hI1 he1 hL1 hb => ?_) (fun w1 v hI1 he1 hL1 hb => by simp at hb)
  simp only [Option.some.injEq] at hb
  subst hb
  exact safe_ret hI1 hL1 fun w2 hI2 he2 hL2 => ⟨_, hL2, v, rfl, rfl⟩

/-! ## slices -/

theorem mem_positions {a n i : Nat} : i ∈ positions a n ↔ a ≤ i ∧ i < a + n := by
  simp [positions, List.mem_range'_1]

theorem slc_pub {w : World α} {s : Slc} (h : ∀ i ∈ positions s.a s.len, (w.spec.val i).isSome) :
    ∀ i, s.a ≤ i → i < s.a + s.len → (w.spec.val i).isSome := fun i h1 h2 => h i (mem_positions.2 ⟨h1, h2⟩)

theorem opSafe_slGet (s : Slc) (i : Nat) : OpSafe (.slGet s i : Op α β) := by
  intro σ₀ c w hI hL hn _
  simp only [Op.prog, Slc.get, Prog.map_eq]
  by_cases hi : i < s.len
  · simp only [hi, if_true]
    refine safe_colGet' hI hL (hI.pub_cap _ (slc_pub hn _ (by omega) (by omega))) fun w1 hI1 hr1 hL1 => ?_
    exact safe_ret hI1 hL1 fun w2 hI2 he2 hL2 => ⟨_, hL2, by simp [hi], rfl⟩
  · simp only [hi, if_false, Prog.pure_eq, Prog.ret_bind]
    exact safe_ret hI hL fun w2 hI2 he2 hL2 => ⟨_, hL2, by simp [hi], rfl⟩

theorem opSafe_slIndex (s : Slc) (i : Nat) : OpSafe (.slIndex s i : Op α β) := by
  intro σ₀ c w hI hL hn _
  simp only [Op.prog, Slc.index, Slc.get, Prog.map_eq, Prog.bind_eq, Prog.bind_assoc]
  by_cases hi : i < s.len
  · simp only [hi, if_true]
    refine safe_colGet' hI hL (hI.pub_cap _ (slc_pub hn _ (by omega) (by omega))) fun w1 hI1 hr1 hL1 => ?_
    exact safe_ret hI1 hL1 fun w2 hI2 he2 hL2 => ⟨_, hL2, hi, rfl, rfl⟩
  · simp only [hi, if_false, Prog.pure_eq, Prog.ret_bind]
    exact safe_panic hI hL fun w2 hI2 he2 hL2 => ⟨_, _, hL2, fun _ h => h, rfl, rfl, by omega⟩

theorem opSafe_slGetCloned (s : Slc) (i : Nat) : OpSafe (.slGetCloned s i : Op α β) := by
  intro σ₀ c w hI hL hn _
  simp only [Op.prog, Slc.getCloned, Prog.map_eq, Prog.bind_eq]
  by_cases hi : i < s.len
  · have hp := slc_pub hn (s.a + i) (by omega) (by omega)
    simp only [hi, if_true, Prog.bind_assoc]
    refine safe_colGet' hI hL (hI.pub_cap _ hp) fun w1 hI1 hr1 hL1 => ?_
    simp only [Prog.bind_assoc, Prog.pure_eq]
    refine safe_cloned hI1 hL1 (hr1.ev.pub _ hp) (fun _ => ⟨rfl, .inr ⟨rfl, hi, rfl⟩⟩) fun w2 v hI2 he2 hL2 => ?_
    exact safe_ret hI2 hL2 fun w3 hI3 he3 hL3 => ⟨_, hL3, .inl ⟨hi, v, rfl, rfl⟩⟩
  · simp only [hi, if_false, Prog.pure_eq, Prog.ret_bind]
    exact safe_ret hI hL fun w2 hI2 he2 hL2 => ⟨_, hL2, .inr ⟨by omega, rfl, rfl⟩⟩

theorem opSafe_slIterCloned (s : Slc) : OpSafe (.slIterCloned s : Op α β) := by
  intro σ₀ c w hI hL hn _
  simp only [Op.prog, Slc.iterCloned, Slc.iter, Prog.map_eq]
  refine safe_loopCloned s.len s.a hI hL (slc_pub hn) (fun _ _ _ h1 h2 => ⟨rfl, .inr ⟨h1, h2⟩⟩)
    fun w2 vs hI2 he2 hL2 hvs => ?_
  exact safe_ret hI2 hL2 fun w3 hI3 he3 hL3 => ⟨_, hL3, vs, rfl, hvs, rfl⟩

theorem opSafe_slMap (s : Slc) (f : α → Option β) : OpSafe (.slMap s f : Op α β) := by
  intro σ₀ c w hI hL hn _
  simp only [Op.prog, Slc.map, Slc.iter, Prog.map_eq]
  refine safe_loopMap s.len s.a hI hL (slc_pub hn) (fun _ _ _ h1 h2 => ⟨rfl, .inr ⟨h1, h2⟩⟩)
    (fun w2 vs bs hI2 he2 hL2 hvs hbs => ?_) (fun w2 vs x hI2 he2 hL2 hvs hx hall => ?_)
  · exact safe_ret hI2 hL2 fun w3 hI3 he3 hL3 => ⟨_, hL3, bs, rfl, vs, hvs, rfl, hbs⟩
  · exact ⟨_, _, hL2, fun _ h => h, rfl, vs, x, hvs, rfl, hx, hall⟩

theorem opSafe_slFilter (s : Slc) (f : α → Option Bool) : OpSafe (.slFilter s f : Op α β) := by
  intro σ₀ c w hI hL hn _
  simp only [Op.prog, Slc.filter, Slc.iter, Prog.map_eq]
  refine safe_loopFilter s.len s.a hI hL (slc_pub hn) (fun _ _ _ h1 h2 => ⟨rfl, .inr ⟨h1, h2⟩⟩)
    (fun w2 vs hI2 he2 hL2 hvs hall => ?_) (fun w2 vs x hI2 he2 hL2 hvs hx hall => ?_)
  · exact safe_ret hI2 hL2 fun w3 hI3 he3 hL3 => ⟨_, hL3, _, rfl, vs, hvs, rfl, hall, rfl⟩
  · exact ⟨_, _, hL2, fun _ h => h, rfl, vs, x, hvs, rfl, hx, hall⟩

theorem opSafe_slFold (s : Slc) (f : β → α → Option β) (init : β) : OpSafe (.slFold s f init : Op α β) := by
  intro σ₀ c w hI hL hn _
  simp only [Op.prog, Slc.fold, Slc.iter, Prog.map_eq]
  refine safe_loopFold s.len s.a init hI hL (slc_pub hn) (fun _ _ _ h1 h2 => ⟨rfl, .inr ⟨h1, h2⟩⟩)
    (fun w2 vs b hI2 he2 hL2 hvs hb => ?_) (fun w2 vs x agg hI2 he2 hL2 hvs hagg hx => ?_)
  · exact safe_ret hI2 hL2 fun w3 hI3 he3 hL3 => ⟨_, hL3, b, rfl, vs, hvs, rfl, hb⟩
  · exact ⟨_, _, hL2, fun _ h => h, rfl, vs, x, agg, hvs, rfl, hagg, hx⟩

theorem opSafe_slVisit (s : Slc) (f : β → α → Option (β × Bool)) (init : β) : OpSafe (.slVisit s f init : Op α β) := by
  intro σ₀ c w hI hL hn _
  simp only [Op.prog, Slc.visit, Slc.iter, Prog.map_eq]
  refine safe_loopVisit s.len s.a init hI hL (slc_pub hn) (fun _ _ _ h1 h2 => ⟨rfl, .inr ⟨h1, h2⟩⟩)
    (fun w2 vs b go hI2 he2 hL2 hb hvs hgo => ?_) (fun w2 vs x agg hI2 he2 hL2 hvs hagg hx => ?_)
  · exact safe_ret hI2 hL2 fun w3 hI3 he3 hL3 => ⟨_, hL3, b, rfl, vs, go, rfl, hb, hvs, hgo⟩
  · exact ⟨_, _, hL2, fun _ h => h, rfl, vs, x, agg, hvs, rfl, hagg, hx⟩

theorem opSafe_slReduce (s : Slc) (f : α → α → Option α) : OpSafe (.slReduce s f : Op α β) := by
  intro σ₀ c w hI hL hn _
  simp only [Op.prog, Slc.reduce, Slc.iter, Prog.map_eq]
  refine safe_loopReduce s.len s.a hI hL (slc_pub hn) (fun _ _ _ h1 h2 => ⟨rfl, .inr ⟨h1, h2⟩⟩)
    (fun w2 hI2 he2 hL2 hn => ?_)
    (fun w2 v vs b hI2 he2 hL2 hvs hb => ?_) (fun w2 v vs x agg hI2 he2 hL2 hvs hagg hx => ?_)
  · exact safe_ret hI2 hL2 fun w3 hI3 he3 hL3 => ⟨_, hL3, none, rfl, .inl ⟨hn, rfl, rfl⟩⟩
  · exact safe_ret hI2 hL2 fun w3 hI3 he3 hL3 =>
      ⟨_, hL3, some b, rfl, .inr ⟨v, vs, b, hvs, rfl, hb, rfl⟩⟩
  · exact ⟨_, _, hL2, fun _ h => h, rfl, v, vs, x, agg, hvs, rfl, hagg, hx⟩

theorem opSafe_slIndexOf (s : Slc) (veq : α → α → Bool) (t : α) : OpSafe (.slIndexOf s veq t : Op α β) := by
  intro σ₀ c w hI hL hn _
  simp only [Op.prog, Slc.indexOf, Slc.iter, Prog.map_eq]
  refine safe_loopPosition s.len s.a 0 hI hL (slc_pub hn) (fun _ _ _ h1 h2 => ⟨rfl, .inr ⟨h1, h2⟩⟩)
    (fun w2 vs hI2 he2 hL2 hvs hall => ?_) (fun w2 vs x hI2 he2 hL2 hvs hall hx => ?_)
  · exact safe_ret hI2 hL2 fun w3 hI3 he3 hL3 => ⟨_, hL3, none, rfl, .inl ⟨vs, hvs, rfl, hall, rfl⟩⟩
  · exact safe_ret hI2 hL2 fun w3 hI3 he3 hL3 =>
      ⟨_, hL3, _, rfl, .inr ⟨vs, x, hvs, rfl, hall, hx, by simp⟩⟩

theorem opSafe_slContains (s : Slc) (veq : α → α → Bool) (t : α) : OpSafe (.slContains s veq t : Op α β) := by
  intro σ₀ c w hI hL hn _
  simp only [Op.prog, Slc.contains, Slc.indexOf, Slc.iter, Prog.map_eq, Prog.bind_eq, Prog.bind_assoc,
    Prog.pure_eq, Prog.ret_bind]
  refine safe_loopPosition s.len s.a 0 hI hL (slc_pub hn) (fun _ _ _ h1 h2 => ⟨rfl, .inr ⟨h1, h2⟩⟩)
    (fun w2 vs hI2 he2 hL2 hvs hall => ?_) (fun w2 vs x hI2 he2 hL2 hvs hall hx => ?_)
  · exact safe_ret hI2 hL2 fun w3 hI3 he3 hL3 => ⟨_, hL3, none, rfl, .inl ⟨vs, hvs, rfl, hall, rfl⟩⟩
  · exact safe_ret hI2 hL2 fun w3 hI3 he3 hL3 =>
      ⟨_, hL3, some _, rfl, .inr ⟨vs, x, hvs, rfl, hall, hx, by simp⟩⟩

theorem opSafe_slEqList (s : Slc) (veq : α → α → Option Bool) (ts : List α) :
    OpSafe (.slEqList s veq ts : Op α β) := by
  intro σ₀ c w hI hL hn _
  simp only [Op.prog, Slc.eqList, Slc.iter, Prog.map_eq]
  refine safe_loopEqList s.len s.a ts hI hL (slc_pub hn) (fun _ _ _ h1 h2 => ⟨rfl, .inr ⟨h1, h2⟩⟩)
    (fun w2 d' b hI2 he2 hL2 ho => ?_) (fun w2 d' hI2 he2 hL2 ho => ?_)
  · exact safe_ret hI2 hL2 fun w3 hI3 he3 hL3 => ⟨_, hL3, b, rfl, ho⟩
  · exact ⟨_, _, hL2, fun _ h => h, rfl, ho⟩

theorem opSafe_slDebug (s : Slc) (sh : α → String) : OpSafe (.slDebug s sh : Op α β) := by
  intro σ₀ c w hI hL hn _
  simp only [Op.prog, Slc.debug, Slc.iter, Prog.map_eq]
  refine safe_loopDebug s.len s.a hI hL (slc_pub hn) (fun _ _ _ h1 h2 => ⟨rfl, .inr ⟨h1, h2⟩⟩)
    fun w2 vs hI2 he2 hL2 hvs => ?_
  exact safe_ret hI2 hL2 fun w3 hI3 he3 hL3 => ⟨_, hL3, vs, rfl, hvs, rfl⟩

theorem opSafe_slSplitAt (s : Slc) (mid : Nat) : OpSafe (.slSplitAt s mid : Op α β) := by
  intro σ₀ c w hI hL hn _
  simp only [Op.prog, Slc.splitAt, Prog.map_eq]
  by_cases hm : mid ≤ s.len
  · simp only [hm, if_true, Prog.pure_eq, Prog.ret_bind]
    refine safe_ret hI hL fun w2 hI2 he2 hL2 => ⟨_, hL2, hm, ?_, rfl⟩
    simp [Slc.slice, rangeLimits_co, Nat.min_eq_left hm]
  · simp only [hm, if_false, Prog.panic_bind]
    exact safe_panic hI hL fun w2 hI2 he2 hL2 => ⟨_, _, hL2, fun _ h => h, rfl, rfl, by omega⟩

theorem opSafe_slSplitFirst (s : Slc) : OpSafe (.slSplitFirst s : Op α β) := by
  intro σ₀ c w hI hL hn _
  simp only [Op.prog, Slc.splitFirst, Slc.get, Prog.map_eq, Prog.bind_eq, Prog.bind_assoc]
  by_cases hi : 0 < s.len
  · simp only [hi, if_true]
    refine safe_colGet' hI hL (hI.pub_cap _ (slc_pub hn _ (by omega) (by omega))) fun w1 hI1 hr1 hL1 => ?_
    refine safe_ret hI1 hL1 fun w2 hI2 he2 hL2 => ⟨_, hL2, rfl, .inr ⟨hi, ?_⟩⟩
    simp [Slc.slice, rangeLimits_co, Nat.min_eq_left (show 1 ≤ s.len by omega)]
  · simp only [hi, if_false, Prog.pure_eq, Prog.ret_bind]
    exact safe_ret hI hL fun w2 hI2 he2 hL2 => ⟨_, hL2, rfl, .inl ⟨by omega, rfl⟩⟩

theorem opSafe_slSplitLast (s : Slc) : OpSafe (.slSplitLast s : Op α β) := by
  intro σ₀ c w hI hL hn _
  simp only [Op.prog, Slc.splitLast, Slc.index, Slc.get, Prog.map_eq, Prog.bind_eq]
  by_cases hi : s.len = 0
  · simp only [hi, if_true, Prog.pure_eq, Prog.ret_bind]
    exact safe_ret hI hL fun w2 hI2 he2 hL2 => ⟨_, hL2, rfl, .inl ⟨hi, rfl⟩⟩
  · simp only [hi, if_false, Prog.bind_assoc, show s.len - 1 < s.len by omega, if_true]
    refine safe_colGet' hI hL (hI.pub_cap _ (slc_pub hn _ (by omega) (by omega))) fun w1 hI1 hr1 hL1 => ?_
    refine safe_ret hI1 hL1 fun w2 hI2 he2 hL2 => ⟨_, hL2, rfl, .inr ⟨by omega, ?_⟩⟩
    simp [Slc.slice, rangeLimits_co]

theorem opSafe_slChunks (s : Slc) (k : Nat) : OpSafe (.slChunks s k : Op α β) := by
  intro σ₀ c w hI hL hn _
  simp only [Op.prog, Slc.chunks, Prog.map_eq]
  by_cases hk : 0 < k
  · simp only [hk, if_true, Prog.pure_eq, Prog.ret_bind]
    exact safe_ret hI hL fun w2 hI2 he2 hL2 => ⟨_, hL2, hk, rfl, rfl⟩
  · simp only [hk, if_false, Prog.panic_bind]
    exact safe_panic hI hL fun w2 hI2 he2 hL2 => ⟨_, _, hL2, fun _ h => h, rfl, rfl, by omega⟩

theorem opSafe_slGetRaw (s : Slc) (o : MOrd) (i : Nat) : OpSafe (.slGetRaw s o i : Op α β) := by
  intro σ₀ c w hI hL hn _
  simp only [Op.prog, Slc.getRaw, Slc.idx, Prog.map_eq]
  by_cases hi : i < s.len
  · simp only [hi, if_true]
    have hp := slc_pub hn (s.a + i) (by omega) (by omega)
    refine safe_vecGetRaw (looks_ctx _ _ _) hI hL (fun w1 hI1 he1 hL1 hp => ?_) (fun w1 hI1 he1 hL1 hor => ?_)
    · exact safe_ret hI1 hL1 fun w2 hI2 he2 hL2 => ⟨_, hL2, rfl, .inl ⟨hi, rfl, he2.pub _ hp⟩⟩
    · refine safe_ret hI1 hL1 fun w2 hI2 he2 hL2 => ⟨_, hL2, rfl, .inr ⟨rfl, .inr ?_⟩⟩
      rcases hor with hor | ⟨d', h⟩
      · simp [hor] at hp
      · exact ⟨d', he2.trace.subset h⟩
  · simp only [hi, if_false, Prog.pure_eq, Prog.ret_bind]
    exact safe_ret hI hL fun w2 hI2 he2 hL2 => ⟨_, hL2, rfl, .inr ⟨rfl, .inl (by omega)⟩⟩

theorem opSafe_slIterRef (s : Slc) (o : MOrd) : OpSafe (.slIterRef s o : Op α β) := by
  intro σ₀ c w hI hL hn _
  simp only [Op.prog, Slc.iterRef, Slc.iter, Prog.map_eq]
  by_cases hs : s.len = 0
  · simp only [positions, hs, List.range'_zero, Loop.rawRefs, Prog.pure_eq, Prog.ret_bind]
    exact safe_ret hI hL fun w2 hI2 he2 hL2 =>
      ⟨_, hL2, rfl, [], rfl, by simp, by simp, fun i h1 h2 => by omega⟩
  · have hc := hI.pub_cap _ (slc_pub hn (s.a + (s.len - 1)) (by omega) (by omega))
    refine safe_loopRaw (looks_ctx _ _ _) s.len s.a hI hL (by omega) fun w2 l hI2 he2 hL2 hraw => ?_
    exact safe_ret hI2 hL2 fun w3 hI3 he3 hL3 => ⟨_, hL3, rfl, l, rfl, hraw.later he3⟩

theorem opSafe_slSwap (m : MutMode) (s : Slc) (i j : Nat) : OpSafe (.slSwap m s i j : Op α β) := by
  intro σ₀ c w hI hL hn _
  simp only [Op.prog, Slc.swap, Slc.idx, Prog.map_eq]
  by_cases hi : i < s.len
  · by_cases hj : j < s.len
    · simp only [hi, hj, if_true]
      refine safe_swap (looks_ctx _ _ _) (fun hij => ⟨rfl, .inr ⟨rfl, hi, hj, rfl, rfl, by omega⟩⟩) hI hL
        (fun hm => by subst hm; exact ⟨rfl, rfl⟩) (fun n w1 hI1 he1 hL1 hij hlen hi' hj' => ?_)
        (fun w1 hI1 he1 hL1 hor => ?_)
      · exact safe_ret hI1 hL1 fun w2 hI2 he2 hL2 =>
          ⟨_, hL2, .inl ⟨hi, hj, by omega, rfl, rfl⟩⟩
      · refine safe_ret hI1 hL1 fun w2 hI2 he2 hL2 => ⟨_, hL2, .inr ⟨rfl, rfl, .inr (.inr ?_)⟩⟩
        exact hor.imp (fun ⟨n, h1, h2⟩ => ⟨n, h1.later he2, h2⟩) id
    · simp only [hi, hj, if_true, if_false, Prog.pure_eq, Prog.ret_bind]
      exact safe_ret hI hL fun w2 hI2 he2 hL2 => ⟨_, hL2, .inr ⟨rfl, rfl, .inr (.inl (by omega))⟩⟩
  · simp only [hi, if_false, Prog.pure_eq, Prog.ret_bind]
    exact safe_ret hI hL fun w2 hI2 he2 hL2 => ⟨_, hL2, .inr ⟨rfl, rfl, .inl (by omega)⟩⟩

theorem opSafe_slFill (s : Slc) (v : α) : OpSafe (.slFill s v : Op α β) := by
  intro σ₀ c w hI hL hn _
  simp only [Op.prog, Slc.fill, Slc.iter, Prog.map_eq]
  refine safe_loopFill s.len s.a hI hL (slc_pub hn) (fun _ _ _ h1 h2 => ⟨rfl, .inr ⟨h1, h2, rfl⟩⟩)
    fun w2 olds hI2 he2 hL2 holds => ?_
  exact safe_ret hI2 hL2 fun w3 hI3 he3 hL3 => ⟨_, hL3, rfl, olds, holds, rfl⟩

theorem opSafe_slFillWith (s : Slc) (f : Nat → Option α) : OpSafe (.slFillWith s f : Op α β) := by
  intro σ₀ c w hI hL hn _
  simp only [Op.prog, Slc.fillWith, Slc.iter, Prog.map_eq]
  refine safe_loopFillWith s.len s.a 0 hI hL (slc_pub hn)
    (fun _ i _ _ h1 h2 h => ⟨rfl, .inr ⟨h1, h2, by simpa using h⟩⟩)
    (fun w2 ps hI2 he2 hL2 hlenp hps => ?_) (fun w2 ps hI2 he2 hL2 hlenp hps hn => ?_)
  · exact safe_ret hI2 hL2 fun w3 hI3 he3 hL3 =>
      ⟨_, hL3, rfl, ps, hlenp, rfl, by simpa using hps⟩
  · exact ⟨_, _, hL2, fun _ h => h, rfl, ps, hlenp, rfl, by simpa using hps, by simpa using hn⟩

theorem opSafe_deref (e : Nat) : OpSafe (.deref e : Op α β) := by
  intro σ₀ c w hI hL _ hp
  simp only [Op.prog, Prog.map_eq]
  refine safe_valRead hI hL (hp e (by simp [Op.needsPtr])) (.inl rfl) (fun _ => ⟨rfl, .inr ⟨rfl, rfl⟩⟩)
    fun w1 v hI1 he1 _ _ hL1 => ?_
  exact safe_ret hI1 hL1 fun w2 hI2 he2 hL2 => ⟨_, hL2, v, rfl, rfl⟩

theorem opSafe_pure {op : Op α β} {r : Ret α β} (hop : op.prog = .ret r)
    (ho : ∀ c w0 w, op.Outcome c w0 w [] r) : OpSafe op := by
  intro σ₀ c w hI hL _ _
  rw [hop]
  exact safe_ret hI hL fun w2 hI2 he2 hL2 => ⟨_, hL2, ho _ _ _⟩

/-- Every API call meets its specification, whatever other calls do. -/
theorem opSafe (op : Op α β) : OpSafe op := by
  cases op with
  | push v => exact opSafe_push v
  | pushForIdx f => exact opSafe_pushForIdx f
  | extend it => exact opSafe_extend it
  | extendN items n => exact opSafe_extendN items n
  | extendForIdx f n => exact opSafe_extendForIdx f n
  | len => exact opSafe_len
  | isEmpty => exact opSafe_isEmpty
  | capacity => exact opSafe_capacity
  | maximumCapacity => exact opSafe_maximumCapacity
  | get i => exact opSafe_get i
  | index i => exact opSafe_index i
  | getCloned i => exact opSafe_getCloned i
  | iter => exact opSafe_iter
  | iterCloned => exact opSafe_iterCloned
  | map f => exact opSafe_map f
  | filter f => exact opSafe_filter f
  | fold f init => exact opSafe_fold f init
  | visit f init => exact opSafe_visit f init
  | reduce f => exact opSafe_reduce f
  | indexOf veq v => exact opSafe_indexOf veq v
  | contains veq v => exact opSafe_contains veq v
  | cloneToVec => exact opSafe_cloneToVec
  | eqList veq vs => exact opSafe_eqList veq vs
  | debug s => exact opSafe_debug s
  | slice r => exact opSafe_slice r
  | asSlice => exact opSafe_asSlice
  | splitAt mid => exact opSafe_splitAt mid
  | splitFirst => exact opSafe_splitFirst
  | splitLast => exact opSafe_splitLast
  | chunks k => exact opSafe_chunks k
  | getRaw o i => exact opSafe_getRaw o i
  | iterRef o => exact opSafe_iterRef o
  | swap m i j => exact opSafe_swap m i j
  | fill v => exact opSafe_fill v
  | fillWith f => exact opSafe_fillWith f
  | elCloned e => exact opSafe_elCloned e
  | elMap f e => exact opSafe_elMap f e
  | elReplace e v => exact opSafe_elReplace e v
  | elSet e v => exact opSafe_elSet e v
  | elUpdate f e => exact opSafe_elUpdate f e
  | elEq veq v e => exact opSafe_elEq veq v e
  | slLen s => exact opSafe_pure (op := .slLen s) rfl fun _ _ _ => ⟨rfl, rfl⟩
  | slIsEmpty s => exact opSafe_pure (op := .slIsEmpty s) rfl fun _ _ _ => ⟨rfl, rfl⟩
  | slGet s i => exact opSafe_slGet s i
  | slIndex s i => exact opSafe_slIndex s i
  | slGetCloned s i => exact opSafe_slGetCloned s i
  | slIter s => exact opSafe_pure (op := .slIter s) rfl fun _ _ _ => ⟨rfl, rfl⟩
  | slIterCloned s => exact opSafe_slIterCloned s
  | slMap s f => exact opSafe_slMap s f
  | slFilter s f => exact opSafe_slFilter s f
  | slFold s f init => exact opSafe_slFold s f init
  | slVisit s f init => exact opSafe_slVisit s f init
  | slReduce s f => exact opSafe_slReduce s f
  | slIndexOf s veq v => exact opSafe_slIndexOf s veq v
  | slContains s veq v => exact opSafe_slContains s veq v
  | slEqList s veq vs => exact opSafe_slEqList s veq vs
  | slDebug s sh => exact opSafe_slDebug s sh
  | slSlice s r => exact opSafe_pure (op := .slSlice s r) rfl fun _ _ _ => ⟨rfl, rfl⟩
  | slSplitAt s mid => exact opSafe_slSplitAt s mid
  | slSplitFirst s => exact opSafe_slSplitFirst s
  | slSplitLast s => exact opSafe_slSplitLast s
  | slChunks s k => exact opSafe_slChunks s k
  | slGetRaw s o i => exact opSafe_slGetRaw s o i
  | slIterRef s o => exact opSafe_slIterRef s o
  | slSwap m s i j => exact opSafe_slSwap m s i j
  | slFill s v => exact opSafe_slFill s v
  | slFillWith s f => exact opSafe_slFillWith s f
  | deref e => exact opSafe_deref e

end Verif
