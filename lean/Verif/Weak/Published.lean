import Verif.Weak.Taken

/-!
# When nobody is running, exactly the published positions have values

Helper file (no property statements).
-/

namespace Verif

variable {α β ρ ρ' : Type}

/-- The next action stores the state of position `i`. -/
def Prog.StoresNext (i : Nat) : Prog α ρ → Prop
  | .step (.stStore j _ _) _ _ => j = i
  | _ => False

/-- Whoever writes a value stores the state right afterwards. -/
def Prog.Tidy : Prog α ρ → Prop
  | .ret _ => True
  | .panic _ => True
  | .step a again k => (∀ b, (k b).Tidy) ∧ ∀ i v, a = .valWrite i v → ∀ b, again b = false ∧ (k b).StoresNext i

theorem Prog.StoresNext.bind {i : Nat} {p : Prog α ρ} {f : ρ → Prog α ρ'} (h : p.StoresNext i) : (p.bind f).StoresNext i := by
  cases p with
  | ret x => exact h.elim
  | panic k => exact h.elim
  | step a again k => cases a <;> exact h

theorem Prog.Tidy.bind {p : Prog α ρ} {f : ρ → Prog α ρ'} (hp : p.Tidy) (hf : ∀ x, (f x).Tidy) : (p.bind f).Tidy := by
  induction p with
  | ret x => exact hf x
  | panic k => trivial
  | step a again k ih => exact ⟨fun b => ih b (hp.1 b), fun i v h b => ⟨(hp.2 i v h b).1, (hp.2 i v h b).2.bind⟩⟩

theorem tidy_act {a : Act α} (h : ∀ i v, a ≠ .valWrite i v) : (act a).Tidy :=
  ⟨fun _ => trivial, fun i v he => absurd he (h i v)⟩

theorem tidy_spin {a : Act α} {again : a.Resp → Bool} (h : ∀ i v, a ≠ .valWrite i v) : (spin a again).Tidy :=
  ⟨fun _ => trivial, fun i v he => absurd he (h i v)⟩

theorem tidy_init (i : Nat) (v : α) : (COpt.init i v).Tidy := by
  refine ⟨fun _ => ⟨fun _ => trivial, fun j u h => by cases h⟩, fun j u h _ => ?_⟩
  cases h
  exact ⟨rfl, rfl⟩

theorem tidy_assert (i : Nat) : (Col.assertHasCapacityFor i : Prog α Unit).Tidy := by
  refine (tidy_act (by simp)).bind fun x => ?_
  split <;> trivial

theorem tidy_growTo (n : Nat) : (Col.growTo n : Prog α Unit).Tidy := by
  refine (tidy_act (by simp)).bind fun x => ?_
  split
  · trivial
  · refine (tidy_act (by simp)).bind fun y => ?_
    split
    · exact (tidy_act (by simp)).bind fun _ => tidy_act (by simp)
    · trivial

theorem tidy_singleItem (i : Nat) : (Col.singleItem i : Prog α Unit).Tidy := by
  refine (tidy_assert i).bind fun _ => (tidy_spin (by simp)).bind fun x => ?_
  split
  · trivial
  · exact tidy_growTo _
  · trivial

theorem tidy_nItems (b n : Nat) : (Col.nItems b n : Prog α Unit).Tidy := by
  unfold Col.nItems
  split
  · trivial
  · refine (tidy_assert _).bind fun _ => (tidy_spin (by simp)).bind fun x => ?_
    split
    · trivial
    · exact tidy_growTo _
    · trivial

theorem tidy_writeItems : ∀ (n b : Nat) (items : List (Option α)), (CVec.writeItems b n items).Tidy
  | 0, _, _ => trivial
  | _ + 1, _, [] => trivial
  | _ + 1, _, none :: _ => trivial
  | n + 1, b, some v :: vs => (tidy_init b v).bind fun _ => tidy_writeItems n (b + 1) vs

theorem tidy_extendN (items : List (Option α)) (n : Nat) : (CVec.extendN items n).Tidy :=
  (tidy_act (by simp)).bind fun _ => (tidy_nItems _ _).bind fun _ => (tidy_writeItems _ _ _).bind fun _ => trivial

theorem tidy_growth {op : Op α β} {n : Nat} (h : op.size = some n) : op.prog.Tidy := by
  cases op with
  | push v =>
    refine Prog.Tidy.bind ?_ fun _ => trivial
    exact (tidy_act (by simp)).bind fun _ => (tidy_singleItem _).bind fun _ => (tidy_init _ _).bind fun _ => trivial
  | pushForIdx f =>
    refine Prog.Tidy.bind ?_ fun _ => trivial
    refine (tidy_act (by simp)).bind fun _ => ?_
    split
    · exact (tidy_singleItem _).bind fun _ => (tidy_init _ _).bind fun _ => trivial
    · trivial
  | extend it => exact (tidy_extendN _ _).bind fun _ => trivial
  | extendN items n => exact (tidy_extendN _ _).bind fun _ => trivial
  | extendForIdx f n =>
    refine Prog.Tidy.bind ?_ fun _ => trivial
    refine (tidy_act (by simp)).bind fun _ => (tidy_nItems _ _).bind fun _ => ?_
    split
    · split
      · exact (tidy_writeItems _ _ _).bind fun _ => trivial
      · trivial
    · trivial
  | _ => cases h

namespace Weak

variable {D : Mode} {mx n : Nat} {κ κ' : Cfg α β} {K K0 : Cid → Know} {V : View}

/-- The newest state of position `i` is `NONE`. -/
def Untouched (m : WMem α) (i : Nat) : Prop := ∃ r, (m.st i).getLast? = some r ∧ r.val = .NONE

/-- Growth calls are tidy, and a value without a state is about to get one. -/
structure HInv (κ : Cfg α β) : Prop where
  tidy : ∀ c r p n, κ.calls c = some r → r.op.size = some n → r.status = .running p → p.Tidy
  about : ∀ i, (κ.mem.val i).isSome → Untouched κ.mem i →
    ∃ c r p, κ.calls c = some r ∧ r.status = .running p ∧ p.StoresNext i

/-- What an action does to values and states. -/
theorem exec_untouched {a : Act α} {t : Nat} {V V' : View} {m m' : WMem α} {b : a.Resp} {K : Know} (he : exec a t V m = .ok V' m' b)
    (hp : Pre D mx K a) (hk : KInv D m V K) {i : Nat} (hv : (m'.val i).isSome) (hu : Untouched m' i) :
    Untouched m i ∧ ((m.val i).isSome ∨ ∃ v, a = .valWrite i v ∧ K.U i) ∧ ∀ s o, a ≠ .stStore i s o := by
  have plain : m'.val = m.val → m'.st = m.st → (∀ s o, a ≠ .stStore i s o) →
      Untouched m i ∧ ((m.val i).isSome ∨ ∃ v, a = .valWrite i v ∧ K.U i) ∧ ∀ s o, a ≠ .stStore i s o := by
    intro h1 h2 h3
    rw [h1] at hv
    unfold Untouched at hu ⊢
    rw [h2] at hu
    exact ⟨hu, .inl hv, h3⟩
  have locked : ∀ j, K.L j → ¬ Untouched m j := by
    rintro j hj ⟨r, hr, hn⟩
    obtain ⟨q, hq, hR⟩ := hk.l_last j hj
    rw [hr] at hq; cases hq
    rw [hn] at hR; cases hR
  cases a with
  | resFetchAdd k o =>
    simp only [exec] at he
    split at he <;> cases he
    exact plain rfl rfl (by simp)
  | resLoad o =>
    simp only [exec] at he
    split at he
    · split at he <;> cases he
      exact plain rfl rfl (by simp)
    · cases he
  | writtenLoad o =>
    simp only [exec] at he
    split at he
    · split at he <;> cases he
      exact plain rfl rfl (by simp)
    · cases he
  | writtenFetchMax k o =>
    simp only [exec] at he
    split at he <;> cases he
    exact plain rfl rfl (by simp)
  | capLoad o =>
    simp only [exec] at he
    split at he
    · split at he <;> cases he
      exact plain rfl rfl (by simp)
    · cases he
  | maxCapLoad => simp only [exec] at he; cases he; exact plain rfl rfl (by simp)
  | growAlloc k =>
    simp only [exec] at he
    split at he <;> cases he
    exact plain rfl rfl (by simp)
  | growPublish o =>
    simp only [exec] at he
    split at he
    · split at he <;> cases he
      exact plain rfl rfl (by simp)
    · cases he
  | stLoad j o =>
    simp only [exec] at he
    split at he
    · split at he
      · split at he <;> cases he
        exact plain rfl rfl (by simp)
      · cases he
    · cases he
  | stCas j e s ok fail =>
    simp only [exec] at he
    split at he
    · split at he
      · split at he
        · split at he <;> cases he
          unfold Untouched at hu
          simp only [upd_apply] at hu
          split at hu
          · obtain ⟨r, hr, hn⟩ := hu
            rw [List.getLast?_append] at hr
            simp only [List.getLast?_singleton, Option.some_or, Option.some.injEq] at hr
            subst hr
            rw [show s = .RESERVED from hp.2.2.1] at hn; cases hn
          · exact ⟨hu, .inl hv, by simp⟩
        · split at he <;> cases he
          exact plain rfl rfl (by simp)
      · cases he
    · cases he
  | stStore j s o =>
    simp only [exec] at he
    split at he
    · split at he <;> cases he
      unfold Untouched at hu
      simp only [upd_apply] at hu
      split at hu
      · obtain ⟨r, hr, hn⟩ := hu
        rw [List.getLast?_append] at hr
        simp only [List.getLast?_singleton, Option.some_or, Option.some.injEq] at hr
        subst hr
        rw [show s = .SOME from hp.2.1] at hn; cases hn
      · next hij => exact ⟨hu, .inl hv, fun s o h => hij (by cases h; rfl)⟩
    · cases he
  | valRead j =>
    simp only [exec] at he
    split at he
    · split at he
      · split at he <;> cases he
        exact plain rfl rfl (by simp)
      · cases he
    · cases he
  | valWrite j v =>
    simp only [exec] at he
    split at he
    · split at he <;> cases he
      have hu' : Untouched m i := hu
      refine ⟨hu', ?_, by simp⟩
      simp only [upd_apply] at hv
      split at hv
      · next hij =>
        subst hij
        rcases hp.2 with ⟨h1, -⟩ | ⟨h1, -⟩
        · exact absurd hu' (locked i h1)
        · exact .inr ⟨v, rfl, h1⟩
      · exact .inl hv
    · cases he
  | valSwap j k =>
    simp only [exec] at he
    split at he
    · split at he
      · cases he
      · split at he
        · split at he
          · cases he
            have hu' : Untouched m i := hu
            refine ⟨hu', ?_, by simp⟩
            by_cases h1 : i = j
            · exact absurd hu' (locked i (h1 ▸ hp.2.2.1))
            · by_cases h2 : i = k
              · exact absurd hu' (locked i (h2 ▸ hp.2.2.2.1))
              · simp only [upd_apply, if_neg h1, if_neg h2] at hv
                exact .inl hv
          · cases he
        · cases he
    · cases he

/-- Only growth calls own positions. -/
theorem owner_grows {l : List α} {S : Cid → DS α} {t : List (Ev α)} (h : WInv D mx l.length κ K K0) (T : TInv l κ K K0 S t) {c : Cid} {i : Nat}
    (hi : (K c).R i) (hf : l.length ≤ i) : ∃ op n, κ.Called c op ∧ op.size = some n := by
  obtain ⟨h1, h2⟩ := (T.loc c).own i hi
  obtain ⟨b, n, h3, -, -⟩ := Legal.owner_reserved T.legal h1 hf
  rw [h2] at h3
  obtain ⟨op, h4, h5⟩ := (T.explained h).reserved c b n h3
  exact ⟨op, n, h4, h5⟩

/-- The positions of the initial vector have been published. -/
theorem not_untouched {l : List α} (h : WInv D mx l.length κ K K0) {i : Nat} (hi : i < l.length) : ¬ Untouched κ.mem i := by
  rintro ⟨r, hr, hn⟩
  obtain ⟨q, hq, hn'⟩ := ((h.k 0).v i (h.zero i hi).1).1
  rw [hr] at hq; cases hq
  exact hn' hn

theorem hinv {m : Mem α} {l : List α} (hm : InitMem m l) (h : Reach m κ) (ho : ∀ c op, κ.Called c op → Allowed D op) : HInv κ := by
  induction h with
  | init =>
    refine ⟨fun c r p n hc => (by cases hc), fun i hv ⟨r, hr, hn⟩ => ?_⟩
    change ([Msg.init (m.st i)]).getLast? = some r at hr
    simp only [List.getLast?_singleton, Option.some.injEq] at hr
    subst hr
    change m.st i = .NONE at hn
    change (m.val i).isSome at hv
    rw [hm.st] at hn
    rw [hm.val] at hv
    split at hn
    · cases hn
    · next hlt => rw [List.getElem?_eq_none (by omega)] at hv; cases hv
  | @step κ κ' hr hs ih =>
    have ho' : ∀ c op, κ.Called c op → Allowed D op := fun c op hc => ho c op (Step.called hs (Reach.new hr) hc)
    have ih := ih ho'
    obtain ⟨K, K0, S, t, hW, hT⟩ := tinv hm hr ho'
    have key : ∀ (c : Cid) (q : Rec α β) (d : Cid) (r : Rec α β), upd κ.calls c (some q) d = some r →
        (d = c ∧ r = q) ∨ (d ≠ c ∧ κ.calls d = some r) := by
      intro c q d r h
      rw [upd_apply] at h
      split at h
      · next e => cases h; exact .inl ⟨e, rfl⟩
      · next e => exact .inr ⟨e, h⟩
    have over : ∀ (c : Cid) (r q : Rec α β) (x : Prog α (Ret α β)), κ.calls c = some r → r.status = .running x →
        (∀ i, ¬ x.StoresNext i) → (∀ y, q.status ≠ .running y) →
        HInv { κ with calls := upd κ.calls c (some q) } := by
      intro c r q x hc hx hno hq
      refine ⟨fun d r' p n hd hn hp => ?_, fun i hv hu => ?_⟩
      · rcases key _ _ _ _ hd with ⟨-, rfl⟩ | ⟨-, hd⟩
        · exact absurd hp (hq p)
        · exact ih.tidy d r' p n hd hn hp
      · obtain ⟨d, r', p, hd, hp, hsn⟩ := ih.about i hv hu
        refine ⟨d, r', p, ?_, hp, hsn⟩
        show upd κ.calls c _ d = _
        rw [upd_apply, if_neg]
        · exact hd
        · rintro rfl
          rw [hc] at hd; cases hd
          rw [hx] at hp; cases hp
          exact hno i hsn
    cases hs with
    | call op H V hH hn hp =>
      have hnew := hr.new κ.next (Nat.le_refl _)
      refine ⟨fun d r p n hd hn hp => ?_, fun i hv hu => ?_⟩
      · rcases key _ _ _ _ hd with ⟨-, rfl⟩ | ⟨-, hd⟩
        · cases hp; exact tidy_growth hn
        · exact ih.tidy d r p n hd hn hp
      · obtain ⟨d, r', p, hd, hp, hsn⟩ := ih.about i hv hu
        refine ⟨d, r', p, ?_, hp, hsn⟩
        show upd κ.calls κ.next _ d = _
        rw [upd_apply, if_neg]
        · exact hd
        · rintro rfl; rw [hnew] at hd; cases hd
    | act c r a again k t V m b hc hst he =>
      have hf := hW.fits c r hc
      unfold Fits at hf
      rw [hst] at hf
      have hk := hW.k c
      rw [Cfg.viewOf_some hc] at hk
      refine ⟨fun d r' p n hd hn hp => ?_, fun i hv hu => ?_⟩
      · rcases key _ _ _ _ hd with ⟨-, rfl⟩ | ⟨-, hd⟩
        · have := ih.tidy c r _ n hc hn hst
          cases hp
          split
          · exact this
          · exact this.1 b
        · exact ih.tidy d r' p n hd hn hp
      · obtain ⟨h1, h2, h3⟩ := exec_untouched he hf.1 hk hv hu
        rcases h2 with h2 | ⟨v, rfl, hU⟩
        · obtain ⟨d, r', p, hd, hp, hsn⟩ := ih.about i h2 h1
          refine ⟨d, r', p, ?_, hp, hsn⟩
          show upd κ.calls c _ d = _
          rw [upd_apply, if_neg]
          · exact hd
          · rintro rfl
            rw [hc] at hd; cases hd
            rw [hst] at hp; cases hp
            cases a with
            | stStore j s o => exact h3 s o (by rw [show j = i from hsn])
            | _ => exact hsn
        · have hil : l.length ≤ i := Nat.le_of_not_lt fun hlt => not_untouched hW hlt h1
          obtain ⟨op, n, ⟨r1, hr1, hop⟩, hsz⟩ := owner_grows hW hT (hk.u_r i hU) hil
          rw [hc] at hr1; cases hr1
          obtain ⟨h4, h5⟩ := (ih.tidy c r _ n hc (hop ▸ hsz) hst).2 i v rfl b
          exact ⟨c, _, k b, upd_same _ _ _, by simp only [h4]; rfl, h5⟩
    | bad c r a again k t x hc hst he => exact ⟨ih.tidy, ih.about⟩
    | ret c r x hc hst => exact over c r _ _ hc hst (fun _ h => h) (by simp)
    | panic c r k hc hst => exact over c r _ _ hc hst (fun _ h => h) (by simp)
    | reserveMax q hi => exact ⟨ih.tidy, ih.about⟩

/-! ## values are in the storage -/

theorem exec_room {V : Cid → View} {a : Act α} {t : Nat} {V' : View} {m m' : WMem α} {b : a.Resp} {c : Cid}
    (hG : GInv D m K) (hK : ∀ d, KInv D m (V d) (K d)) (hp : Pre D m.maxCap (K c) a) (he : exec a t (V c) m = .ok V' m' b)
    (hr : ∀ i, (m.val i).isSome → i < m.alloc) : ∀ i, (m'.val i).isSome → i < m'.alloc := by
  cases a with
  | growAlloc k =>
    obtain ⟨hn, hmx, x, hx, hu, hgr, hxn⟩ := hp
    obtain ⟨-, hxa, -⟩ := may_grow hG hK hn hx hu hgr
    obtain ⟨ha1, ha2, -⟩ := m.pol.grow_ok hG.good (show m.alloc < k by omega) hmx
    simp only [exec] at he
    split at he <;> cases he
    intro i hi
    have := hr i hi
    show i < m.pol.grow m.alloc k
    omega
  | valWrite j v =>
    simp only [exec] at he
    split at he
    · next hu =>
      split at he <;> cases he
      intro i hi
      simp only [upd_apply] at hi
      split at hi
      · next hij => subst hij; exact usable_lt hu
      · exact hr i hi
    · cases he
  | valSwap j k =>
    simp only [exec] at he
    split at he
    · next hu =>
      rw [Bool.and_eq_true] at hu
      split at he
      · cases he
      · split at he
        · split at he
          · cases he
            intro i hi
            simp only [upd_apply] at hi
            split at hi
            · next hij => subst hij; exact usable_lt hu.2
            · split at hi
              · next hij => subst hij; exact usable_lt hu.1
              · exact hr i hi
          · cases he
        · cases he
    · cases he
  | _ =>
    simp only [exec] at he
    repeat' split at he
    all_goals first
      | cases he; done
      | (cases he; exact hr)

theorem rinv {m : Mem α} {l : List α} (hm : InitMem m l) (h : Reach m κ) (ho : ∀ c op, κ.Called c op → Allowed D op) :
    ∀ i, (κ.mem.val i).isSome → i < κ.mem.alloc := by
  induction h with
  | init =>
    intro i hi
    change (m.val i).isSome at hi
    change i < m.cap
    rw [hm.val, Option.isSome_iff_exists] at hi
    obtain ⟨v, hv⟩ := hi
    have := (List.getElem?_eq_some_iff.1 hv).1
    have := hm.cap
    have := hm.alloc
    omega
  | @step κ κ' hr hs ih =>
    have ho' : ∀ c op, κ.Called c op → Allowed D op := fun c op hc => ho c op (Step.called hs (Reach.new hr) hc)
    have ih := ih ho'
    obtain ⟨K, K0, S, t, hW, -⟩ := tinv hm hr ho'
    cases hs with
    | act c r a again k t V m b hc hst he =>
      have hf := hW.fits c r hc
      unfold Fits at hf
      rw [hst] at hf
      rw [← Cfg.viewOf_some hc] at he
      exact exec_room hW.g hW.k hf.1 he ih
    | _ => exact ih

/-! ## the memory when nobody is running -/

theorem specNext_lt {σ : SpecSt α} {e : Ev α} (hok : specOk σ e) (h : ∀ i, (σ.val i).isSome → i < σ.len) :
    ∀ i, ((specNext σ e).val i).isSome → i < (specNext σ e).len := by
  intro i hi
  cases e with
  | reserve c b n => exact Nat.lt_of_lt_of_le (h i hi) (Nat.le_add_right _ _)
  | publish c j v =>
    simp only [specNext, upd_apply] at hi ⊢
    split at hi
    · next hij => subst hij; exact hok.1
    · exact h i hi
  | write c j o v =>
    simp only [specNext, upd_apply] at hi ⊢
    split at hi
    · next hij => subst hij; exact h i (by rw [show σ.val i = some o from hok]; rfl)
    · exact h i hi
  | swap c j k =>
    simp only [specNext, upd_apply] at hi ⊢
    split at hi
    · next hij => subst hij; exact h i (by first | exact hok.2.1 | exact hok.2.2)
    · split at hi
      · next hij => subst hij; exact h i (by first | exact hok.2.2 | exact hok.2.1)
      · exact h i hi
  | _ => exact h i hi

theorem specAt_lt {σ : SpecSt α} {t : List (Ev α)} (hok : Legal σ t) (h : ∀ i, (σ.val i).isSome → i < σ.len) :
    ∀ i, ((specAt σ t).val i).isSome → i < (specAt σ t).len := by
  induction t generalizing σ with
  | nil => exact h
  | cons e t ih => exact ih (Legal.suffix (t := [e]) hok) (specNext_lt (hok [] e t rfl) h)

theorem val_reserved {l : List α} {S : Cid → DS α} {t : List (Ev α)} (T : TInv l κ K K0 S t) {i : Nat} (h : (κ.mem.val i).isSome) :
    i < lastVal κ.mem.res := by
  rw [← T.len]
  refine specAt_lt T.legal (fun j hj => ?_) i (by rw [T.val]; exact h)
  change (l[j]?).isSome at hj
  rw [Option.isSome_iff_exists] at hj
  obtain ⟨v, hv⟩ := hj
  exact (List.getElem?_eq_some_iff.1 hv).1

theorem not_mem_pubs {c c' : Cid} {b b' n : Nat} {vs : List α} : Ev.reserve c' b' n ∉ pubs c b vs := by
  induction vs generalizing b with
  | nil => simp [pubs]
  | cons v vs ih => simp [pubs, ih]

/-- A growth call returns the first of its positions. -/
theorem explains_reserve {op : Op α β} {c c' : Cid} {lo b n k : Nat} {d : List (Ev α)} {x : Ret α β} (he : op.Explains c lo d x)
    (hs : op.size = some k) (hr : Ev.reserve c' b n ∈ d) : x = .nat b := by
  have grew : ∀ {items : List (Option α)} {n' b' : Nat}, Grew c items n' d b' → b = b' := by
    rintro items n' b' ⟨vs, rest, -, -, rfl⟩
    rcases List.mem_cons.1 hr with hr | hr
    · cases hr; rfl
    · exact absurd hr not_mem_pubs
  cases op <;> simp only [Op.size] at hs <;> first | (cases hs; done) | skip
  all_goals simp only [Op.Explains] at he
  case push v =>
    obtain ⟨i, rfl, rfl⟩ := he
    simp at hr; simp [hr]
  case pushForIdx f =>
    obtain ⟨i, v, rfl, hf, rfl⟩ := he
    simp at hr; simp [hr]
  case extend it => obtain ⟨i, rfl, hg⟩ := he; rw [grew hg]
  case extendN items m => obtain ⟨i, rfl, hg⟩ := he; rw [grew hg]
  case extendForIdx f m => obtain ⟨i, it, rfl, hf, -, hg⟩ := he; rw [grew hg]

/-- The memory when nobody is running. -/
structure Settled (l : List α) (κ : Cfg α β) : Prop where
  cap : κ.mem.settled.cap = κ.mem.alloc
  good : κ.mem.pol.good κ.mem.alloc κ.mem.maxCap
  some : ∀ i, (κ.mem.val i).isSome → κ.mem.settled.st i = .SOME
  none : ∀ i, κ.mem.val i = none → κ.mem.settled.st i = .NONE
  bound : ∀ i, (κ.mem.val i).isSome → i < κ.mem.settled.reserved ∧ i < κ.mem.alloc
  first : ∀ i, i < l.length → (κ.mem.val i).isSome
  added : ∀ c i, κ.Added c i → (κ.mem.val i).isSome
  rest : ∀ i, l.length ≤ i → i < κ.mem.settled.reserved → ∃ c op n, κ.Called c op ∧ op.size = Option.some n ∧
    (κ.Added c i ∨ ∃ k, κ.Panicked c op k)
  written : ∀ i, i < κ.mem.settled.written → (κ.mem.val i).isSome
  base : l.length ≤ κ.mem.settled.reserved

theorem past_val (h : WInv D mx n κ K K0) {i : Nat} (hp : Past κ.mem V i) : (κ.mem.val i).isSome := by
  obtain ⟨⟨r, hr, hn⟩, -⟩ := hp
  exact h.g.st_val i r hr hn

theorem settled {m : Mem α} {l : List α} (hm : InitMem m l) (h : Reach m κ) (ho : ∀ c op, κ.Called c op → Allowed D op)
    (hi : κ.Idle) : Settled l κ := by
  obtain ⟨K, K0, S, t, hW, hT⟩ := tinv hm h ho
  obtain ⟨h1, h2, h3⟩ := settled_idle hm h ho hi
  have hH := hinv hm h ho
  have newest : ∀ i, ∃ r, (κ.mem.st i).getLast? = some r := fun i => by
    obtain ⟨r, -, hr⟩ := newest_some (List.length_pos_iff.2 (hW.g.st_ne i))
    exact ⟨r, hr⟩
  have bound : ∀ i, (κ.mem.val i).isSome → i < κ.mem.settled.reserved ∧ i < κ.mem.alloc :=
    fun i hv => ⟨val_reserved hT hv, rinv hm h ho i hv⟩
  have first : ∀ i, i < l.length → (κ.mem.val i).isSome := fun i hil => past_val hW ((hW.k 0).v i (hW.zero i hil).1)
  refine ⟨h1, h3, fun i hv => ?_, fun i hv => ?_, bound, first, ?_, ?_, ?_, ?_⟩
  · obtain ⟨r, hr⟩ := newest i
    show lastSt κ.mem i = _
    rw [lastSt_eq hr]
    rcases hs : r.val with _ | _ | _
    · obtain ⟨c, q, p, hc, hp, -⟩ := hH.about i hv ⟨r, hr, hs⟩
      exact absurd ⟨q, p, hc, rfl, hp⟩ (hi c q.op)
    · exact absurd ⟨r, hr, hs⟩ (h2 i)
    · rfl
  · obtain ⟨r, hr⟩ := newest i
    show lastSt κ.mem i = _
    rw [lastSt_eq hr]
    by_contra hn
    have := hW.g.st_val i r hr hn
    rw [hv] at this; cases this
  · rintro c i ⟨op, n, b, hr, hs, hb, hbn⟩
    obtain ⟨b', hx, -, -, -, hg⟩ := (hW.done hr).grow n hs
    cases hx
    exact past_val hW ((hW.k c).v i (hg i hb hbn).2.1)
  · intro i hl hres
    obtain ⟨b, n, hmem, hb, hbn⟩ := Legal.owner_reserved hT.legal (i := i) (by rw [hT.len]; exact hres) hl
    have E := hT.explained hW
    obtain ⟨op, hc, hs⟩ := E.reserved _ b n hmem
    obtain ⟨q, hq, rfl⟩ := hc
    refine ⟨_, q.op, n, ⟨q, hq, rfl⟩, hs, ?_⟩
    rcases running_of hq with ⟨p, hp⟩ | ⟨x, hx⟩ | ⟨k, hk⟩
    · exact absurd ⟨q, p, hq, rfl, hp⟩ (hi _ q.op)
    · have he := E.returned _ q.op x _ ⟨q, hq, rfl, hx⟩ (.inl rfl)
      have := explains_reserve he hs (mem_dataOf.2 ⟨hmem, rfl, rfl⟩)
      subst this
      exact .inl ⟨q.op, n, b, ⟨q, hq, rfl, hx⟩, hs, hb, hbn⟩
    · exact .inr ⟨k, q, hq, rfl, hk⟩
  · intro i hlt
    obtain ⟨r, hr, hl⟩ := newest_some (List.length_pos_iff.2 hW.g.written_ne)
    have hlt : i < lastVal κ.mem.written := hlt
    rw [lastVal_eq hl] at hlt
    exact past_val hW (hW.g.written_msg _ r hr i hlt).1
  · show l.length ≤ lastVal κ.mem.res
    rw [← hT.len]
    exact specAt_len (.ofList l) t

/-- The list of the values. -/
theorem exists_list {γ : Type} (f : Nat → Option γ) (n : Nat) (h1 : ∀ i, i < n → (f i).isSome) (h2 : ∀ i, n ≤ i → f i = none) :
    ∃ vs : List γ, vs.length = n ∧ ∀ i, f i = vs[i]? := by
  refine ⟨List.ofFn fun i : Fin n => (f i).get (h1 i i.2), by simp, fun i => ?_⟩
  by_cases hi : i < n
  · simp [hi]
  · rw [h2 i (by omega)]; simp [hi]

/-- All growth calls have returned: the memory holds a list. -/
theorem Settled.rep {l : List α} (h : Settled l κ) (hle : κ.mem.settled.reserved ≤ κ.mem.alloc)
    (hv : ∀ i, i < κ.mem.settled.reserved → (κ.mem.val i).isSome) :
    ∃ vs : List α, κ.mem.settled.Rep vs ∧ vs.length = κ.mem.settled.reserved := by
  obtain ⟨vs, h1, h2⟩ := exists_list κ.mem.val κ.mem.settled.reserved hv (fun i hi => by
    rcases hn : κ.mem.val i with _ | v
    · rfl
    · have := (h.bound i (by rw [hn]; rfl)).1; omega)
  refine ⟨vs, ⟨h1.symm, ?_, fun i => ?_, h2, by rw [h.cap, h1]; exact hle, h.cap.symm, rfl, ?_⟩, h1⟩
  · refine Nat.le_of_not_lt fun hlt => ?_
    have := (h.bound _ (h.written _ hlt)).1
    omega
  · split
    · next hi => exact h.some i (hv i (by omega))
    · next hi => exact h.none i (by rw [h2]; exact List.getElem?_eq_none (by omega))
  · rw [h.cap]; exact h.good

end Weak

end Verif
