import Verif.Weak.CompareFair

/-!
# Comparisons that wait for each other, under weak memory, for C61

Helper file (no property statements).
-/

namespace Verif.Weak

variable {α β : Type} {m : Nat → Mem α} {l : Nat → List α} {S : Nat → Sys α β} {n k : Nat} {T T' : Cmp α β}

/-- A call that waits for a handle which somebody has is blocked. -/
theorem At.blocked_of {m : Mem α} {l : List α} {κ : Cfg α β} {c d : Cid} {e : Nat} (h : At κ c e .wait) (hd : At κ d e .held) (hne : d ≠ c)
    (hm : InitMem m l) (hR : Reach m κ) (hdis : κ.Disciplined) : κ.Blocked c := by
  obtain ⟨r, hc, ho, hr⟩ := h.call
  refine ⟨⟨_, r, _, hc, rfl, hr⟩, fun κ' ha => ?_⟩
  have hs := ha.1.step
  have hR' : Reach m κ' := .step hR hs
  have hdis' : κ'.Disciplined := fun c e hc c' op hc' => hdis c e ((ha.1.same.2 _ _).1 hc) c' op ((ha.1.same.2 _ _).1 hc')
  obtain ⟨K, K0, hw⟩ := winv_of hm hR hdis
  obtain ⟨K', K0', hw'⟩ := winv_of hm hR' hdis'
  have hd' : At κ' d e .held := hd.quiet hw ⟨.inr hs, ha.1.calls hne⟩
  obtain ⟨⟨r', hc', hmv⟩, hne'⟩ := ha
  rw [hc] at hc'
  cases hc'
  simp only [Stage.prog, elCloned_prog] at hr
  rcases hmv with ⟨a, again, g, t, V, w, b, hr', he, rfl⟩ | ⟨x, hr', -⟩ | ⟨x, hr', -⟩
  · rcases h.lock hc hr' he hw' with ⟨hab, -⟩ | ⟨hab, hat⟩
    · refine hne' ?_
      rw [Cfg.at_some hc, Cfg.at_some (upd_same _ _ _)]
      simp only [hab, if_true, hr']
    · simp only [hab, Bool.false_eq_true, if_false] at hd' hw' hR'
      exact hne (hw'.owner (hd'.held_has hw' (binv hR')) (hat.held_has hw' (binv hR')))
  · rw [hr] at hr'; cases hr'
  · rw [hr] at hr'; cases hr'

/-- A comparison that waits stays where it is. -/
theorem SysStep.waits {S' : Sys α β} (hs : SysStep (S n) S') (hI : SysInv m (S n)) (hW : ∀ u, Fine ((S n).vec u))
    (hP : ∀ k T, (S n).cmp k = some T → Phase S n k T) (hk : (S n).cmp k = some T) {s : Side} {K : Client α β} (ht : T.prog = .step s K)
    (hb : ((S n).vec (T.vecOf s)).Blocked (T.cid s)) :
    S'.cmp k = some T ∧ ∀ s', (S'.vec (T.vecOf s')).at' (T.cid s') = ((S n).vec (T.vecOf s')).at' (T.cid s') := by
  have quiet : S'.cmp k = some T → (∀ s, (S'.vec (T.vecOf s)).calls (T.cid s) = ((S n).vec (T.vecOf s)).calls (T.cid s)) →
      S'.cmp k = some T ∧ ∀ s', (S'.vec (T.vecOf s')).at' (T.cid s') = ((S n).vec (T.vecOf s')).at' (T.cid s') :=
    fun h1 h2 => ⟨h1, fun s => Cfg.at_eq (h2 s)⟩
  have other : ∀ {k1 T1 s1 T1'}, Acts (S n) S' k1 T1 s1 T1' → k ≠ k1 →
      S'.cmp k = some T ∧ ∀ s', (S'.vec (T.vecOf s')).at' (T.cid s') = ((S n).vec (T.vecOf s')).at' (T.cid s') := by
    intro k1 T1 s1 T1' hA hne
    exact quiet (by rw [hA.cmp', upd_other _ _ hne]; exact hk) fun s => (hA.quiet hI hk fun hh => hne hh.1).same
  have upd_eta : ∀ {k1 T1} {K : Client α β}, (S n).cmp k1 = some T1 → T1.prog = K → (S n).cmp = upd (S n).cmp k1 (some (T1.goesOn K)) := by
    intro k1 T1 K h1 h2
    rw [Cmp.goesOn_eta h2]
    funext k'
    rw [upd_apply]
    split
    · next h => rw [h, h1]
    · rfl
  cases hs with
  | vec u κ' hs ho =>
    refine quiet hk fun s => ?_
    by_cases hu : T.vecOf s = u
    · subst hu; simp only [upd_same]; exact ho k T s hk rfl
    · simp only [upd_other _ _ hu]
  | start k1 u v p q veq H V V' hk1 hl hr hp hq =>
    have : k ≠ k1 := by rintro rfl; rw [hk] at hk1; cases hk1
    exact quiet (by simp only [upd_other _ _ this]; exact hk) fun s => rfl
  | call k1 T1 s1 op K1 κ H V hk1 ht1 hκ hH hb1 hn hp =>
    subst hκ
    refine other (Acts.call (S' := ⟨upd (S n).vec _ _, upd (S n).cmp _ _⟩) (K := K1) hI hk1 hH hb1 hn hp rfl rfl) ?_
    rintro rfl
    rw [hk] at hk1; cases hk1
    rw [ht] at ht1; cases ht1
  | step k1 T1 s1 K1 κ r a again g t V w b hk1 ht1 hκ hcl hr he =>
    subst hκ
    have hst := Step.act _ _ _ _ _ _ _ _ _ _ hcl hr he
    have hA := Acts.open (S' := ⟨upd (S n).vec _ _, upd (S n).cmp _ _⟩) (K := if again b then .step s1 K1 else K1) hI hk1 hcl hst rfl rfl rfl
    by_cases hkk : k = k1
    · subst hkk
      rw [hk] at hk1; cases hk1
      rw [ht] at ht1; cases ht1
      have hab : again b = true := by
        refine Classical.byContradiction fun hno => hb.2 _ ⟨⟨r, hcl, .inl ⟨a, again, g, t, V, w, b, hr, he, rfl⟩⟩, ?_⟩
        rw [Cfg.at_some hcl, Cfg.at_some (upd_same _ _ _), hr]
        simp only [hno, Bool.false_eq_true, if_false]
        intro heq
        injection heq with heq; injection heq with heq
        exact Prog.cont_ne _ a again g b rfl heq
      refine ⟨?_, fun s' => ?_⟩
      · simp only [upd_same, hab, if_true]
        rw [Cmp.goesOn_eta ht]
      · by_cases hs : s' = s
        · subst hs
          simp only [upd_same]
          rw [Cfg.at_some hcl, Cfg.at_some (upd_same _ _ _), hr]
          simp only [hab, if_true]
        · exact Cfg.at_eq (hA.quiet hI hk fun hh => hs hh.2).same
    · exact other hA hkk
  | finStep k1 T1 s1 K1 κ r a again g t V w b hk1 ht1 hκ hcl hr he =>
    subst hκ
    refine other (Acts.open (S' := ⟨upd (S n).vec (T1.vecOf s1) _, (S n).cmp⟩) (K := .fin s1 K1) hI hk1 hcl
      (.act _ _ _ _ _ _ _ _ _ _ hcl hr he) rfl rfl (upd_eta hk1 ht1)) ?_
    rintro rfl
    rw [hk] at hk1; cases hk1
    rw [ht] at ht1; cases ht1
  | finRet k1 T1 s1 K1 κ r z hk1 ht1 hκ hcl hr =>
    subst hκ
    refine other (Acts.open (S' := ⟨upd (S n).vec _ _, upd (S n).cmp _ _⟩) (K := K1 z) hI hk1 hcl (.ret _ _ _ _ hcl hr) rfl rfl rfl) ?_
    rintro rfl
    rw [hk] at hk1; cases hk1
    rw [ht] at ht1; cases ht1
  | panic k1 T1 s κ r pk hk1 ht hκ hcl hr =>
    subst hκ
    exact ((hP _ _ hk1).no_panic hW hcl hr ht).elim
  | bad k1 T1 s κ r a again g t x hk1 ht hκ hcl hr he =>
    subst hκ
    refine quiet hk fun s' => ?_
    simp only [upd_apply]
    split
    · next h => rw [h]
    · rfl

/-- The comparison has the handle of `e` and takes that of `f` next. -/
structure Half (S : Sys α β) (k : Nat) (T : Cmp α β) (e f : Nat) : Prop where
  cmp : S.cmp k = some T
  prog : ∃ K, T.prog = .step .right K
  left : At (S.vec T.u) (T.cid .left) e .held
  right : At (S.vec T.v) (T.cid .right) f .wait

theorem Phase.half (hW : ∀ u, Fine ((S n).vec u)) (hI : SysInv m (S n)) (hP : ∀ k T, (S n).cmp k = some T → Phase S n k T) {u e v f : Nat}
    (h : (S n).WaitsRight k u e v f) : ∃ T, T.u = u ∧ T.v = v ∧ Half (S n) k T e f := by
  obtain ⟨T, K, hk, rfl, rfl, hp, h1, h2, hb⟩ := h
  suffices hx : At ((S n).vec T.u) (T.cid .left) e .held ∧ At ((S n).vec T.v) (T.cid .right) f .wait from
    ⟨T, rfl, rfl, hk, ⟨K, hp⟩, hx.1, hx.2⟩
  have same : ∀ {κ : Cfg α β} {c e e' st}, κ.Called c (.elCloned e) → At κ c e' st → e' = e := by
    rintro κ c e e' st ⟨r, hr, ho⟩ ⟨⟨r', hr', ho', -⟩, -⟩
    rw [hr] at hr'; cases hr'
    rw [ho] at ho'; cases ho'
    rfl
  have stage : ∀ {u c e st}, At ((S n).vec u) c e st → ((S n).vec u).Blocked c → st = .wait := by
    intro u c e st h hb
    obtain ⟨D, mx, len, K, K0, hw⟩ := hW u
    exact h.blocked hw (binv (hI.reach u)) hb
  have hph := hP k T hk
  cases hph with
  | locking es fs ps e' f' hH hv he hf h =>
    cases h with
    | callL rl rr h => rw [h] at hp; cases hp
    | callR rr hl h => rw [h] at hp; cases hp
    | lockL rr hl h => rw [h] at hp; cases hp
    | lockR hl hr h =>
      obtain rfl := same h1 hl
      obtain rfl := same h2 hr
      exact ⟨hl, hr⟩
    | readL hl hr h => rw [h] at hp; cases hp
    | readR x hl hr h => cases stage hr hb
  | judging es fs ps e f x y t hH hv he hf ht' hp' hd h => cases h <;> rename_i h <;> rw [h] at hp <;> cases hp
  | callL hp' hq rl rr h => rw [h] at hp; cases hp
  | callR es hq hl hr rl rr h => rw [h] at hp; cases hp
  | finL hp' hq rr hc h => rw [h] at hp; cases hp
  | finR es hq hl hr rl hc h => rw [h] at hp; cases hp
  | ret es fs ps b hH hv h rl rr => rw [h] at hp; cases hp
  | fail es fs ps j hH hv h rl rr => rw [h] at hp; cases hp

theorem At.same {κ κ' : Cfg α β} {c : Cid} {e : Nat} {st : Stage α} (h : At κ c e st) (hR : ∀ op, κ.Called c op → κ'.Called c op)
    (ha : κ'.at' c = κ.at' c) (hst : ∀ x, st ≠ .read x) : At κ' c e st := by
  obtain ⟨⟨r, hr, ho, hs⟩, -⟩ := h
  obtain ⟨r', hr', ho'⟩ := hR _ ⟨r, hr, ho⟩
  refine ⟨⟨r', hr', ho', ?_⟩, fun x hx => (hst x hx).elim⟩
  rw [Cfg.at_some hr, Cfg.at_some hr', hs] at ha
  injection ha

theorem SysExec.opposite (h : SysExec m n S) (hm : ∀ u, InitMem (m u) (l u)) (hd : (S n).Disciplined) {k k' u e v f t0 : Nat}
    (h1 : (S t0).WaitsRight k u e v f) (h2 : (S t0).WaitsRight k' v f u e) (ht0 : t0 ≤ n) :
    (S n).WaitsRight k u e v f ∧ (S n).WaitsRight k' v f u e := by
  have hI : ∀ {t}, t ≤ n → SysInv m (S t) := fun ht => h.inv ht
  have hW : ∀ {t}, t ≤ n → ∀ u, Fine ((S t).vec u) := fun ht u => h.fine hm hd ht u
  have hdis : ∀ {t}, t ≤ n → (S t).Disciplined := fun {t} ht => h.disciplined hd (d := n - t) (by omega)
  have hP : ∀ {t}, t ≤ n → ∀ k T, (S t).cmp k = some T → Phase S t k T := fun ht => h.phase hm hd ht
  obtain ⟨T, hu, hv, g1⟩ := Phase.half (hW ht0) (hI ht0) (hP ht0) h1
  obtain ⟨T', hu', hv', g2⟩ := Phase.half (hW ht0) (hI ht0) (hP ht0) h2
  have stages : ∀ {κ : Cfg α β} {c e e'}, At κ c e .wait → At κ c e' .held → False := by
    rintro κ c e e' ⟨⟨r, hr, -, hs⟩, -⟩ ⟨⟨r', hr', -, hs'⟩, -⟩
    rw [hr] at hr'; cases hr'
    rw [hs] at hs'
    simp only [Stage.prog, elCloned_prog] at hs'
    cases hs'
  -- each of them waits
  have blocked : ∀ {t}, t ≤ n → Half (S t) k T e f → Half (S t) k' T' f e →
      ((S t).vec T.v).Blocked (T.cid .right) ∧ ((S t).vec T'.v).Blocked (T'.cid .right) := by
    intro t ht g1 g2
    have l1 := g1.left
    have l2 := g2.left
    have r1 := g1.right
    have r2 := g2.right
    rw [hu] at l1
    rw [hv] at r1
    rw [hu'] at l2
    rw [hv'] at r2
    rw [hv, hv']
    exact ⟨r1.blocked_of l2 (fun he => stages r1 (he ▸ l2)) (hm v) ((hI ht).reach v) (hdis ht v),
      r2.blocked_of l1 (fun he => stages r2 (he ▸ l1)) (hm u) ((hI ht).reach u) (hdis ht u)⟩
  have key : ∀ {t}, t0 ≤ t → t ≤ n → Half (S t) k T e f ∧ Half (S t) k' T' f e := by
    intro t hle
    induction hle with
    | refl => exact fun _ => ⟨g1, g2⟩
    | @step t hle ih =>
      intro ht
      have ht : t + 1 ≤ n := ht
      obtain ⟨g1, g2⟩ := ih (by omega)
      obtain ⟨b1, b2⟩ := blocked (by omega) g1 g2
      have hst := h.next t (by omega)
      have hvs := (hst.split (hI (t := t) (by omega))).1
      have one : ∀ {k T e f}, Half (S t) k T e f → ((S t).vec T.v).Blocked (T.cid .right) → Half (S (t + 1)) k T e f := by
        intro k T e f g hb
        obtain ⟨K, hp⟩ := g.prog
        obtain ⟨c1, c2⟩ := hst.waits (hI (t := t) (by omega)) (hW (t := t) (by omega)) (hP (t := t) (by omega)) g.cmp hp hb
        have called : ∀ u c op, ((S t).vec u).Called c op → ((S (t + 1)).vec u).Called c op := by
          rintro u c op ⟨r, hr, ho⟩
          rcases hvs u with he | hs
          · rw [he]; exact ⟨r, hr, ho⟩
          · obtain ⟨r', h1, h2, -⟩ := hs.goes ((hI (t := t) (by omega)).reach u).new hr
            exact ⟨r', h1, h2.trans ho⟩
        exact ⟨c1, g.prog, g.left.same (called _ _) (c2 .left) (fun x hx => by cases hx),
          g.right.same (called _ _) (c2 .right) (fun x hx => by cases hx)⟩
      exact ⟨one g1 b1, one g2 b2⟩
  obtain ⟨g1, g2⟩ := key ht0 (Nat.le_refl n)
  obtain ⟨b1, b2⟩ := blocked (Nat.le_refl n) g1 g2
  have back : ∀ {k T e f}, Half (S n) k T e f → ((S n).vec T.v).Blocked (T.cid .right) → (S n).WaitsRight k T.u e T.v f := by
    intro k T e f g hb
    obtain ⟨K, hp⟩ := g.prog
    obtain ⟨⟨r, c1, o1, -⟩, -⟩ := g.left
    obtain ⟨⟨r', c2, o2, -⟩, -⟩ := g.right
    exact ⟨T, K, g.cmp, rfl, rfl, hp, ⟨r, c1, o1⟩, ⟨r', c2, o2⟩, hb⟩
  have r1 := back g1 b1
  have r2 := back g2 b2
  rw [hu, hv] at r1
  rw [hu', hv'] at r2
  exact ⟨r1, r2⟩

theorem Sys.WaitsRight.comparing {S : Sys α β} {u e v f : Nat} (h : S.WaitsRight k u e v f) : S.Comparing k := by
  obtain ⟨T, K, hk, -, -, hp, -⟩ := h
  exact ⟨T, hk, fun b hb => (by rw [hp] at hb; cases hb), fun e he => (by rw [hp] at he; cases he)⟩

end Verif.Weak
