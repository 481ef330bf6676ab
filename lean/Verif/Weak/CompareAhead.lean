import Verif.Weak.CompareProgress

/-!
# Comparisons that do not wait get ahead, under weak memory, for C61

Helper file (no property statements).
-/

namespace Verif.Weak

variable {α β : Type} {m : Nat → Mem α} {l : Nat → List α} {S : Nat → Sys α β} {n k : Nat} {T T' : Cmp α β}

/-! ## What a call still has to do -/

/-- What a call still has to do. -/
def Cfg.rest (κ : Cfg α β) (c : Cid) : Option (Prog α (Ret α β)) :=
  match κ.at' c with
  | some (.running p) => some p
  | _ => none

theorem Cfg.at_eq {κ κ' : Cfg α β} {c : Cid} (h : κ'.calls c = κ.calls c) : κ'.at' c = κ.at' c := by unfold Cfg.at'; rw [h]

theorem Cfg.rest_eq {κ κ' : Cfg α β} {c : Cid} (h : κ'.at' c = κ.at' c) : κ'.rest c = κ.rest c := by unfold Cfg.rest; rw [h]

theorem Cfg.rest_none {κ : Cfg α β} {c : Cid} (h : ∀ op, ¬ κ.Running c op) : κ.rest c = none := by
  unfold Cfg.rest
  split
  · rename_i p hp
    unfold Cfg.at' at hp
    obtain ⟨r, h1, h2⟩ := Option.map_eq_some_iff.1 hp
    exact (h _ ⟨r, p, h1, rfl, h2⟩).elim
  · rfl

/-- A call that gets further has less to do. -/
theorem Step.rest_less {κ κ' : Cfg α β} (hs : Step κ κ') (hn : ∀ d, κ.next ≤ d → κ.calls d = none) {c : Cid} {r : Rec α β}
    (hc : κ.calls c = some r) (hne : κ'.at' c ≠ κ.at' c) : Less (κ'.rest c) (κ.rest c) := by
  obtain ⟨r', h1, -, h2⟩ := hs.goes hn hc
  unfold Cfg.rest
  rw [Cfg.at_some hc, Cfg.at_some h1] at hne ⊢
  generalize r.status = x at h2 hne ⊢
  generalize r'.status = y at h2 hne ⊢
  cases h2 with
  | same => exact absurd rfl hne
  | rest h => exact h
  | done => trivial
  | panicked => trivial

theorem Cfg.Moves.calls {κ κ' : Cfg α β} {c d : Cid} (h : κ.Moves c κ') (hd : d ≠ c) : κ'.calls d = κ.calls d := by
  obtain ⟨r, hc, ⟨a, again, k, t, V, m, b, hr, he, rfl⟩ | ⟨x, hr, rfl⟩ | ⟨k, hr, rfl⟩⟩ := h <;> exact upd_other _ _ hd

/-- The calls of a comparison are possible. -/
theorem Phase.needs (hP : Phase S n k T) {s : Side} {op : Op α β} {K : Client α β} (ht : T.prog = .call s op K) :
    (∀ i ∈ op.needs, ((S n).vec (T.vecOf s)).Revealed (T.hb s ++ T.own s) i) ∧ op.needsPtr = [] ∧
      (op = .iter ∨ ∃ e, op = .elCloned e) ∧ T.Rests (S n) s := by
  cases hP with
  | callL hp hq rl rr h =>
    rw [h] at ht; cases ht
    exact ⟨fun i hi => by simp [Op.needs] at hi, rfl, .inl rfl, rl⟩
  | callR es hq hl hr rl rr h =>
    rw [h] at ht; cases ht
    exact ⟨fun i hi => by simp [Op.needs] at hi, rfl, .inl rfl, rr⟩
  | locking es fs ps e f hH hv he hf h =>
    cases h with
    | callL rl rr h =>
      rw [h] at ht; cases ht
      refine ⟨fun i hi => ?_, rfl, .inr ⟨e, rfl⟩, rl⟩
      simp only [Op.needs, List.mem_singleton] at hi
      subst hi
      exact hH.revL _ (List.mem_of_getElem? he)
    | callR rr hl h =>
      rw [h] at ht; cases ht
      refine ⟨fun i hi => ?_, rfl, .inr ⟨f, rfl⟩, rr⟩
      simp only [Op.needs, List.mem_singleton] at hi
      subst hi
      exact hH.revR _ (List.mem_of_getElem? hf)
    | lockL rr hl h => rw [h] at ht; cases ht
    | lockR hl hr h => rw [h] at ht; cases ht
    | readL hl hr h => rw [h] at ht; cases ht
    | readR x hl hr h => rw [h] at ht; cases ht
  | finL hp hq rr hc h => rw [h] at ht; cases ht
  | finR es hq hl hr rl hc h => rw [h] at ht; cases ht
  | judging es fs ps e f x y t hH hv he hf ht' hp hd h => cases h <;> rename_i h <;> rw [h] at ht <;> cases ht
  | ret es fs ps b hH hv h rl rr => rw [h] at ht; cases ht
  | fail es fs ps j hH hv h rl rr => rw [h] at ht; cases ht

/-! ## What a comparison still has to do -/

/-- What the comparison of thread `k` still has to do. -/
def Sys.cmpPart (S : Sys α β) (k : Nat) : Job α β :=
  match S.cmp k with
  | none => (.ret true, none, none)
  | some T => (T.prog, (S.vec T.u).rest (T.cid .left), (S.vec T.v).rest (T.cid .right))

theorem Sys.cmpPart_some {S : Sys α β} (h : S.cmp k = some T) :
    S.cmpPart k = (T.prog, (S.vec (T.vecOf .left)).rest (T.cid .left), (S.vec (T.vecOf .right)).rest (T.cid .right)) := by
  unfold Sys.cmpPart; rw [h]; rfl

/-- Nothing happens to the comparison, or less is left to do. -/
structure Sys.Onward (S S' : Sys α β) (k : Nat) (T T' : Cmp α β) : Prop where
  cmp' : S'.cmp k = some T'
  keeps : T.Keeps T'
  old : ∀ s, T'.cid s ≠ T.cid s → ∀ op, ¬ (S.vec (T.vecOf s)).Running (T.cid s) op
  new : ∀ s, T'.cid s = T.cid s ∨ T'.cid s = (S.vec (T.vecOf s)).next
  same : (T' = T ∧ ∀ s, (S'.vec (T.vecOf s)).at' (T.cid s) = (S.vec (T.vecOf s)).at' (T.cid s)) ∨ JobLess (S'.cmpPart k) (S.cmpPart k)

theorem Sys.Onward.part {S S' : Sys α β} (h : S.Onward S' k T T') (hk : S.cmp k = some T) :
    S'.cmpPart k = S.cmpPart k ∨ JobLess (S'.cmpPart k) (S.cmpPart k) := by
  refine h.same.imp (fun ⟨h1, h2⟩ => ?_) id
  subst h1
  rw [Sys.cmpPart_some hk, Sys.cmpPart_some h.cmp', Cfg.rest_eq (h2 .left), Cfg.rest_eq (h2 .right)]

theorem Sys.Onward.ahead {S S' : Sys α β} (h : S.Onward S' k T T') (hk : S.cmp k = some T) (ha : S.GetsAhead S' k) :
    JobLess (S'.cmpPart k) (S.cmpPart k) := by
  refine h.same.resolve_left fun ⟨h1, h2⟩ => ?_
  subst h1
  obtain ⟨-, T1, T2, s, g1, g2, g3⟩ := ha
  rw [hk] at g1
  rw [h.cmp'] at g2
  cases g1
  cases g2
  rcases g3 with g3 | g3
  · exact g3 rfl
  · exact g3 (h2 s)

/-- The comparison makes its call step; the other side is left alone. -/
theorem Acts.onward {S S' : Sys α β} {s : Side} (hA : Acts S S' k T s T') (hI : SysInv m S) {r : Rec α β}
    (hcl : (S.vec (T.vecOf s)).calls (T.cid s) = some r) (hcid : ∀ s, T'.cid s = T.cid s)
    (h : Client.Sub T'.prog T.prog ∨ T' = T) : S.Onward S' k T T' := by
  have hk' : S'.cmp k = some T' := by rw [hA.cmp', upd_same]
  refine ⟨hk', hA.keeps, fun s hh => (hh (hcid s)).elim, fun s => .inl (hcid s), ?_⟩
  rcases h with h | h
  · refine .inr ?_
    rw [Sys.cmpPart_some hA.cmp, Sys.cmpPart_some hk']
    exact .left _ _ h
  · subst h
    have hoth : ∀ s', s' ≠ s → (S'.vec (T'.vecOf s')).at' (T'.cid s') = (S.vec (T'.vecOf s')).at' (T'.cid s') := fun s' hs =>
      Cfg.at_eq (hA.quiet hI (s' := s') hA.cmp fun hh => hs hh.2).same
    by_cases hat : (S'.vec (T'.vecOf s)).at' (T'.cid s) = (S.vec (T'.vecOf s)).at' (T'.cid s)
    · refine .inl ⟨rfl, fun s' => ?_⟩
      by_cases hs : s' = s
      · subst hs; exact hat
      · exact hoth s' hs
    · refine .inr ?_
      rw [Sys.cmpPart_some hA.cmp, Sys.cmpPart_some hk']
      refine .right _ ?_
      have hless : Less ((S'.vec (T'.vecOf s)).rest (T'.cid s)) ((S.vec (T'.vecOf s)).rest (T'.cid s)) := by
        rcases hA.vecStep (T'.vecOf s) with he | hs
        · rw [he] at hat; exact absurd rfl hat
        · exact hs.rest_less (hI.reach _).new hcl hat
      cases s with
      | left =>
        rw [Cfg.rest_eq (hoth .right (by decide))]
        exact .fst hless
      | right =>
        rw [Cfg.rest_eq (hoth .left (by decide))]
        exact .snd hless

/-- What a step does to a comparison. -/
theorem SysStep.onward {S' : Sys α β} (hs : SysStep (S n) S') (hI : SysInv m (S n)) (hW : ∀ u, Fine ((S n).vec u))
    (hP : ∀ k T, (S n).cmp k = some T → Phase S n k T) (hk : (S n).cmp k = some T) : ∃ T', (S n).Onward S' k T T' := by
  have quiet : S'.cmp k = some T → (∀ s, (S'.vec (T.vecOf s)).calls (T.cid s) = ((S n).vec (T.vecOf s)).calls (T.cid s)) →
      ∃ T', (S n).Onward S' k T T' := fun h1 h2 => ⟨T, h1, .refl T, fun s hh => (hh rfl).elim, fun s => .inl rfl, .inl ⟨rfl, fun s => Cfg.at_eq (h2 s)⟩⟩
  have other : ∀ {k1 T1 s1 T1'}, Acts (S n) S' k1 T1 s1 T1' → k ≠ k1 → ∃ T', (S n).Onward S' k T T' := by
    intro k1 T1 s1 T1' hA hne
    exact quiet (by rw [hA.cmp', upd_other _ _ hne]; exact hk) fun s => (hA.quiet hI hk fun hh => hne hh.1).same
  have upd_eta : ∀ {k1 T1} {K : Client α β}, (S n).cmp k1 = some T1 → T1.prog = K → (S n).cmp = upd (S n).cmp k1 (some (T1.goesOn K)) := by
    intro k1 T1 K h1 h2
    rw [Cmp.goesOn_eta h2]
    funext k'
    rw [upd_apply]
    split
    · next h => rw [h, h1]
    · rfl
  cases hs with
  | vec u κ' hs ho =>
    refine quiet hk fun s => ?_
    by_cases hu : T.vecOf s = u
    · subst hu; simp only [upd_same]; exact ho k T s hk rfl
    · simp only [upd_other _ _ hu]
  | start k1 u v p q veq H V V' hk1 hl hr hp hq =>
    have : k ≠ k1 := by rintro rfl; rw [hk] at hk1; cases hk1
    exact quiet (by simp only [upd_other _ _ this]; exact hk) fun s => rfl
  | call k1 T1 s op K κ H V hk1 ht hκ hH hb hn hp =>
    subst hκ
    have hA := Acts.call (S' := ⟨upd (S n).vec _ _, upd (S n).cmp _ _⟩) (K := K) hI hk1 hH hb hn hp rfl rfl
    by_cases hkk : k = k1
    · subst hkk
      rw [hk] at hk1
      cases hk1
      have hk' : upd (S n).cmp k (some (T.opened s ((S n).vec (T.vecOf s)).next K)) k = some _ := upd_same _ _ _
      have hcid : ∀ s', s' ≠ s → (T.opened s ((S n).vec (T.vecOf s)).next K).cid s' = T.cid s' := hA.other
      refine ⟨_, hk', hA.keeps, fun s' hne op => ?_, fun s' => ?_, .inr ?_⟩
      · by_cases hs : s' = s
        · subst hs; exact ((hP k T hk).needs ht).2.2.2.not_running hI
        · exact (hne (hcid s' hs)).elim
      · by_cases hs : s' = s
        · subst hs; exact hA.mine
        · exact .inl (hcid s' hs)
      rw [Sys.cmpPart_some hk, Sys.cmpPart_some hk', ht]
      exact .left _ _ (.call _ _ _)
    · exact other hA hkk
  | step k1 T1 s K κ r a again g t V w b hk1 ht hκ hcl hr he =>
    subst hκ
    have hA := Acts.open (S' := ⟨upd (S n).vec _ _, upd (S n).cmp _ _⟩) (K := if again b then .step s K else K) hI hk1 hcl (.act _ _ _ _ _ _ _ _ _ _ hcl hr he) rfl rfl rfl
    by_cases hkk : k = k1
    · subst hkk
      rw [hk] at hk1
      cases hk1
      refine ⟨_, hA.onward hI hcl (fun _ => rfl) ?_⟩
      cases hab : again b with
      | true => exact .inr (Cmp.goesOn_eta (by simp only [if_true]; exact ht))
      | false =>
        refine .inl ?_
        rw [ht]
        exact .step _ _
    · exact other hA hkk
  | finStep k1 T1 s K κ r a again g t V w b hk1 ht hκ hcl hr he =>
    subst hκ
    have hA := Acts.open (S' := ⟨upd (S n).vec (T1.vecOf s) _, (S n).cmp⟩) (K := .fin s K) hI hk1 hcl
      (.act _ _ _ _ _ _ _ _ _ _ hcl hr he) rfl rfl (upd_eta hk1 ht)
    by_cases hkk : k = k1
    · subst hkk
      rw [hk] at hk1
      cases hk1
      exact ⟨_, hA.onward hI hcl (fun _ => rfl) (.inr (Cmp.goesOn_eta ht))⟩
    · exact other hA hkk
  | finRet k1 T1 s K κ r z hk1 ht hκ hcl hr =>
    subst hκ
    have hA := Acts.open (S' := ⟨upd (S n).vec _ _, upd (S n).cmp _ _⟩) (K := K z) hI hk1 hcl (.ret _ _ _ _ hcl hr) rfl rfl rfl
    by_cases hkk : k = k1
    · subst hkk
      rw [hk] at hk1
      cases hk1
      refine ⟨_, hA.onward hI hcl (fun _ => rfl) (.inl ?_)⟩
      rw [ht]
      exact .fin _ _ _
    · exact other hA hkk
  | panic k1 T1 s κ r pk hk1 ht hκ hcl hr =>
    subst hκ
    exact ((hP _ _ hk1).no_panic hW hcl hr ht).elim
  | bad k1 T1 s κ r a again g t x hk1 ht hκ hcl hr he =>
    subst hκ
    refine quiet hk fun s' => ?_
    simp only [upd_apply]
    split
    · next h => rw [h]
    · rfl

/-! ## A comparison that does not wait -/

/-- The call that shall perform an action has an action to perform. -/
theorem Phase.openStep (hP : Phase S n k T) {s : Side} {K : Client α β} (ht : T.prog = .step s K) :
    ∃ r a again g, ((S n).vec (T.vecOf s)).calls (T.cid s) = some r ∧ r.status = .running (.step a again g) := by
  have wait : ∀ {κ : Cfg α β} {c e}, At κ c e .wait → ∃ r a again g, κ.calls c = some r ∧ r.status = .running (.step a again g) := by
    intro κ c e h
    obtain ⟨r, h1, -, h2⟩ := h.call
    simp only [Stage.prog, elCloned_prog] at h2
    exact ⟨r, _, _, _, h1, h2⟩
  have held : ∀ {κ : Cfg α β} {c e}, At κ c e .held → ∃ r a again g, κ.calls c = some r ∧ r.status = .running (.step a again g) := by
    intro κ c e h
    obtain ⟨r, h1, -, h2⟩ := h.call
    exact ⟨r, _, _, _, h1, h2⟩
  cases hP with
  | locking es fs ps e f hH hv he hf h =>
    cases h with
    | callL rl rr h => rw [h] at ht; cases ht
    | callR rr hl h => rw [h] at ht; cases ht
    | lockL rr hl h => rw [h] at ht; cases ht; exact wait hl
    | lockR hl hr h => rw [h] at ht; cases ht; exact wait hr
    | readL hl hr h => rw [h] at ht; cases ht; exact held hl
    | readR x hl hr h => rw [h] at ht; cases ht; exact held hr
  | callL hp hq rl rr h => rw [h] at ht; cases ht
  | callR es hq hl hr rl rr h => rw [h] at ht; cases ht
  | finL hp hq rr hc h => rw [h] at ht; cases ht
  | finR es hq hl hr rl hc h => rw [h] at ht; cases ht
  | judging es fs ps e f x y t hH hv he hf ht' hp hd h => cases h <;> rename_i h <;> rw [h] at ht <;> cases ht
  | ret es fs ps b hH hv h rl rr => rw [h] at ht; cases ht
  | fail es fs ps j hH hv h rl rr => rw [h] at ht; cases ht

/-- The call that shall end is running and does not wait. -/
theorem Phase.openFin (hI : SysInv m (S n)) (hW : ∀ u, Fine ((S n).vec u)) (hP : Phase S n k T) {s : Side}
    {K : Ret α β → Client α β} (ht : T.prog = .fin s K) :
    (∃ op, ((S n).vec (T.vecOf s)).Running (T.cid s) op) ∧ ¬ ((S n).vec (T.vecOf s)).Blocked (T.cid s) := by
  have iter : ∀ {u c}, ((S n).vec u).Running c .iter → (∃ op, ((S n).vec u).Running c op) ∧ ¬ ((S n).vec u).Blocked c := by
    intro u c h
    obtain ⟨D, mx, len, K, K0, hw⟩ := hW u
    exact ⟨⟨_, h⟩, iter_not_blocked (hI.reach u) hw h⟩
  have elem : ∀ {u c e st}, At ((S n).vec u) c e st → st ≠ .wait → (∃ op, ((S n).vec u).Running c op) ∧ ¬ ((S n).vec u).Blocked c := by
    intro u c e st h hne
    obtain ⟨r, h1, h2, h3⟩ := h.call
    obtain ⟨D, mx, len, K, K0, hw⟩ := hW u
    exact ⟨⟨_, r, _, h1, rfl, h3⟩, fun hb => hne (h.blocked hw (binv (hI.reach u)) hb)⟩
  cases hP with
  | finL hp hq rr hc h => rw [h] at ht; cases ht; exact iter hc
  | finR es hq hl hr rl hc h => rw [h] at ht; cases ht; exact iter hc
  | judging es fs ps e f x y t hH hv he hf ht' hp hd h =>
    cases h with
    | both hl hr' h => rw [h] at ht; cases ht; exact elem hr' (by simp)
    | unlR hl hr' h => rw [h] at ht; cases ht; exact elem hr' (by simp)
    | left rr hf hl h => rw [h] at ht; cases ht; exact elem hl (by simp)
    | unlL rr hf hl h => rw [h] at ht; cases ht; exact elem hl (by simp)
  | locking es fs ps e f hH hv he hf h => cases h <;> rename_i h <;> rw [h] at ht <;> cases ht
  | callL hp hq rl rr h => rw [h] at ht; cases ht
  | callR es hq hl hr rl rr h => rw [h] at ht; cases ht
  | ret es fs ps b hH hv h rl rr => rw [h] at ht; cases ht
  | fail es fs ps j hH hv h rl rr => rw [h] at ht; cases ht

/-- A comparison gets ahead. -/
structure Ahead (S S' : Sys α β) (k : Nat) (T : Cmp α β) (s : Side) (T' : Cmp α β) : Prop where
  acts : Acts S S' k T s T'
  gets : S.GetsAhead S' k
  old : T'.cid s ≠ T.cid s → ∀ op, ¬ (S.vec (T.vecOf s)).Running (T.cid s) op
  called : ∀ u c op, (S'.vec u).Called c op → (S.vec u).Called c op ∨ op = .iter ∨ ∃ e, op = .elCloned e
  maxCap : ∀ u, (S'.vec u).mem.maxCap = (S.vec u).mem.maxCap

theorem Fine.maxCap {κ κ' : Cfg α β} (h : Fine κ) (hs : Step κ κ') {c : Cid} (hr : ∃ op, κ.Running c op) :
    κ'.mem.maxCap = κ.mem.maxCap := by
  obtain ⟨D, mx, len, K, K0, hw⟩ := h
  obtain ⟨op, hr⟩ := hr
  exact (hw.maxCap_le hs).2 fun hi => hi c op hr

/-- A running call that is not blocked can get ahead. -/
theorem Cfg.advances {κ : Cfg α β} {c : Cid} (hr : ∃ op, κ.Running c op) (hb : ¬ κ.Blocked c) : ∃ κ', κ.Advances c κ' :=
  Classical.byContradiction fun hno => hb ⟨hr, fun κ' h => hno ⟨κ', h⟩⟩

/-- A comparison whose open call gets ahead. -/
theorem Ahead.opened {S S' : Sys α β} (hI : SysInv m S) (hW : ∀ u, Fine (S.vec u)) (hk : S.cmp k = some T)
    {s : Side} {κ' : Cfg α β} {r r' : Rec α β} {K : Client α β} (ha : (S.vec (T.vecOf s)).Advances (T.cid s) κ')
    (hcl : (S.vec (T.vecOf s)).calls (T.cid s) = some r) (hr : ∃ op, (S.vec (T.vecOf s)).Running (T.cid s) op)
    (hcalls : κ'.calls = upd (S.vec (T.vecOf s)).calls (T.cid s) (some r'))
    (hst : SysStep S S') (hv : S'.vec = upd S.vec (T.vecOf s) κ') (hc : S'.cmp = upd S.cmp k (some (T.goesOn K))) :
    Ahead S S' k T s (T.goesOn K) := by
  have hvs : S'.vec (T.vecOf s) = κ' := by rw [hv, upd_same]
  have hs := ha.1.step
  refine ⟨Acts.open hI hk hcl hs hcalls hv hc, ⟨hst, T, _, s, hk, by rw [hc, upd_same], .inr ?_⟩, fun hh => (hh rfl).elim, ?_, ?_⟩
  · rw [hvs]; exact ha.2
  · intro u c op hcall
    left
    by_cases hu : u = T.vecOf s
    · subst hu
      rw [hvs] at hcall
      exact (ha.1.same.2 _ _).1 hcall
    · rw [hv, upd_other _ _ hu] at hcall
      exact hcall
  · intro u
    by_cases hu : u = T.vecOf s
    · subst hu; rw [hvs]; exact (hW _).maxCap hs hr
    · rw [hv, upd_other _ _ hu]

/-- A comparison that does not wait can get ahead. -/
theorem Phase.ahead (hI : SysInv m (S n)) (hW : ∀ u, Fine ((S n).vec u)) (hP : Phase S n k T) (hk : (S n).cmp k = some T)
    (hcmp : (S n).Comparing k) (hw : ¬ (S n).Waits k) : ∃ S' s T', Ahead (S n) S' k T s T' := by
  cases ht : T.prog with
  | ret b =>
    obtain ⟨T1, h1, h2, -⟩ := hcmp
    rw [hk] at h1; cases h1
    exact (h2 b ht).elim
  | panic e =>
    obtain ⟨T1, h1, -, h2⟩ := hcmp
    rw [hk] at h1; cases h1
    exact (h2 e ht).elim
  | call s op K =>
    obtain ⟨h1, h2, h3, h4⟩ := hP.needs ht
    have hp : ∀ i ∈ op.needsPtr, ((S n).vec (T.vecOf s)).RevealedPtr (T.hb s ++ T.own s) i := fun i hi => by rw [h2] at hi; cases hi
    obtain ⟨V, hV⟩ := ended_of_over (κ := (S n).vec (T.vecOf s)) (H := T.hb s ++ T.own s) fun c hc =>
      (List.mem_append.1 hc).elim (hI.hb k T s hk c) (h4 c)
    refine ⟨_, s, _, Acts.call (K := K) hI hk hV (fun c hc => hc) h1 hp rfl rfl,
      ⟨.call _ _ _ _ _ _ _ _ _ hk ht rfl hV (fun c hc => hc) h1 hp, T, _, s, hk, upd_same _ _ _, .inl ?_⟩,
      fun _ op => h4.not_running hI, ?_, ?_⟩
    · simp [Cmp.opened, Verif.Cmp.opened]
    · intro u c op' hcall
      by_cases hu : u = T.vecOf s
      · subst hu
        obtain ⟨r, hcc, ho⟩ := hcall
        simp only [upd_same] at hcc
        rw [upd_apply] at hcc
        split at hcc
        · cases hcc; exact .inr (ho ▸ h3)
        · exact .inl ⟨r, hcc, ho⟩
      · obtain ⟨r, hcc, ho⟩ := hcall
        simp only [upd_other _ _ hu] at hcc
        exact .inl ⟨r, hcc, ho⟩
    · intro u
      by_cases hu : u = T.vecOf s
      · subst hu; simp only [upd_same]
      · simp only [upd_other _ _ hu]
  | step s K =>
    obtain ⟨r, a, again, g, hcl, hr⟩ := hP.openStep ht
    have hrun : ∃ op, ((S n).vec (T.vecOf s)).Running (T.cid s) op := ⟨_, r, _, hcl, rfl, hr⟩
    obtain ⟨κ', ha⟩ := Cfg.advances hrun fun hb => hw ⟨T, s, K, hk, ht, hb⟩
    have ha' := ha
    obtain ⟨⟨r', hcl', hm⟩, -⟩ := ha
    rw [hcl] at hcl'
    cases hcl'
    rcases hm with ⟨a', again', g', t, V, w, b, hr', he, rfl⟩ | ⟨x, hr', -⟩ | ⟨x, hr', -⟩
    · rw [hr] at hr'
      cases hr'
      exact ⟨_, s, _, Ahead.opened hI hW hk (K := if again b then .step s K else K) ha' hcl hrun rfl
        (.step _ _ _ _ _ _ _ _ _ _ _ _ _ _ hk ht rfl hcl hr he) rfl rfl⟩
    · rw [hr] at hr'; cases hr'
    · rw [hr] at hr'; cases hr'
  | fin s K =>
    obtain ⟨hrun, hnb⟩ := hP.openFin hI hW ht
    obtain ⟨κ', ha⟩ := Cfg.advances hrun hnb
    have ha' := ha
    obtain ⟨⟨r, hcl, hm⟩, -⟩ := ha
    have hself : (S n).cmp = upd (S n).cmp k (some (T.goesOn (.fin s K))) := by
      rw [Cmp.goesOn_eta ht]
      funext k'
      rw [upd_apply]
      split
      · next h => rw [h, hk]
      · rfl
    rcases hm with ⟨a, again, g, t, V, w, b, hr, he, rfl⟩ | ⟨x, hr, rfl⟩ | ⟨x, hr, rfl⟩
    · exact ⟨_, s, _, Ahead.opened hI hW hk (K := .fin s K) ha' hcl hrun rfl
        (.finStep _ _ _ _ _ _ _ _ _ _ _ _ _ _ hk ht rfl hcl hr he) rfl hself⟩
    · exact ⟨_, s, _, Ahead.opened hI hW hk (K := K x) ha' hcl hrun rfl (.finRet _ _ _ _ _ _ _ _ hk ht rfl hcl hr) rfl rfl⟩
    · exact (hP.no_panic hW hcl hr (.inr ⟨K, ht⟩)).elim

end Verif.Weak
