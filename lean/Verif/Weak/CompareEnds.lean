import Verif.Weak.CompareAhead

/-!
# All comparisons can be brought to their end, under weak memory, for C61

Helper file (no property statements).
-/

namespace Verif.Weak

variable {α β : Type} {m : Nat → Mem α} {l : Nat → List α} {S : Nat → Sys α β} {n k : Nat} {T T' : Cmp α β}

open Classical in
/-- What the call numbered `i` still has to do, if it is not part of a comparison. -/
noncomputable def Sys.callPart (S : Sys α β) (i : Nat) : Option (Prog α (Ret α β)) :=
  if S.Foreign i.unpair.1 i.unpair.2 then (S.vec i.unpair.1).rest i.unpair.2 else none

/-- What is left to do. -/
noncomputable def Sys.left (S : Sys α β) (i : Nat) : Option (Prog α (Ret α β)) × Job α β := (S.callPart i, S.cmpPart i)

/-- Only one call is new or gets further. -/
theorem Step.one {κ κ' : Cfg α β} (h : Step κ κ') : ∃ c, ∀ d, d ≠ c → κ'.calls d = κ.calls d := by
  cases h with
  | call op H V hH hn hp => exact ⟨κ.next, fun d hd => upd_other _ _ hd⟩
  | act c r a again k t V m b hc hr he => exact ⟨c, fun d hd => upd_other _ _ hd⟩
  | bad c r a again k t x hc hr he => exact ⟨0, fun d hd => rfl⟩
  | ret c r x hc hr => exact ⟨c, fun d hd => upd_other _ _ hd⟩
  | panic c r x hc hr => exact ⟨c, fun d hd => upd_other _ _ hd⟩
  | reserveMax n hidle => exact ⟨0, fun d hd => rfl⟩

theorem SysStep.one {S S' : Sys α β} (h : SysStep S S') : ∃ u c k, (∀ u', u' ≠ u → S'.vec u' = S.vec u') ∧
    (∀ d, d ≠ c → (S'.vec u).calls d = (S.vec u).calls d) ∧ ∀ k', k' ≠ k → S'.cmp k' = S.cmp k' := by
  cases h with
  | vec u κ' hs ho =>
    obtain ⟨c, hc⟩ := hs.one
    exact ⟨u, c, 0, fun u' hu => upd_other _ _ hu, fun d hd => by simp only [upd_same]; exact hc d hd, fun _ _ => rfl⟩
  | start k u v p q veq => exact ⟨0, 0, k, fun _ _ => rfl, fun _ _ => rfl, fun k' hk' => upd_other _ _ hk'⟩
  | call k T s op K κ H V hk ht hκ =>
    subst hκ
    exact ⟨T.vecOf s, _, k, fun u' hu => upd_other _ _ hu, fun d hd => by simp only [upd_same]; exact upd_other _ _ hd,
      fun k' hk' => upd_other _ _ hk'⟩
  | step k T s K κ r a again g t V w b hk ht hκ =>
    subst hκ
    exact ⟨T.vecOf s, T.cid s, k, fun u' hu => upd_other _ _ hu, fun d hd => by simp only [upd_same]; exact upd_other _ _ hd,
      fun k' hk' => upd_other _ _ hk'⟩
  | finStep k T s K κ r a again g t V w b hk ht hκ =>
    subst hκ
    exact ⟨T.vecOf s, T.cid s, k, fun u' hu => upd_other _ _ hu, fun d hd => by simp only [upd_same]; exact upd_other _ _ hd,
      fun k' hk' => rfl⟩
  | finRet k T s K κ r z hk ht hκ =>
    subst hκ
    exact ⟨T.vecOf s, T.cid s, k, fun u' hu => upd_other _ _ hu, fun d hd => by simp only [upd_same]; exact upd_other _ _ hd,
      fun k' hk' => upd_other _ _ hk'⟩
  | panic k T s κ r pk hk ht hκ =>
    subst hκ
    exact ⟨T.vecOf s, T.cid s, k, fun u' hu => upd_other _ _ hu, fun d hd => by simp only [upd_same]; exact upd_other _ _ hd,
      fun k' hk' => upd_other _ _ hk'⟩
  | bad k T s κ r a again g t x hk ht hκ =>
    subst hκ
    exact ⟨T.vecOf s, T.cid s, k, fun u' hu => upd_other _ _ hu, fun d hd => by simp only [upd_same], fun k' hk' => rfl⟩

/-- At any moment only finitely many calls and comparisons have been made. -/
theorem SysExec.bound (h : SysExec m n S) : ∀ {t}, t ≤ n → ∃ N, ∀ i, N ≤ i →
    (S t).cmp i = none ∧ ((S t).vec i.unpair.1).calls i.unpair.2 = none := by
  intro t
  induction t with
  | zero => intro _; exact ⟨0, fun i _ => by rw [h.init]; exact ⟨rfl, rfl⟩⟩
  | succ t ih =>
    intro ht
    obtain ⟨N, hN⟩ := ih (by omega)
    obtain ⟨u, c, k, h1, h2, h3⟩ := (h.next t (by omega)).one
    refine ⟨max N (max (Nat.pair u c + 1) (k + 1)), fun i hi => ?_⟩
    obtain ⟨g1, g2⟩ := hN i (by omega)
    refine ⟨by rw [h3 i (by omega)]; exact g1, ?_⟩
    by_cases hu : i.unpair.1 = u
    · have hc : i.unpair.2 ≠ c := by
        intro hc
        have := Nat.pair_unpair i
        rw [hu, hc] at this
        omega
      rw [hu] at g2 ⊢
      rw [h2 _ hc]
      exact g2
    · rw [h1 _ hu]
      exact g2

theorem Sys.left_nothing {S : Sys α β} {i : Nat} (h1 : S.cmp i = none) (h2 : (S.vec i.unpair.1).calls i.unpair.2 = none) :
    S.left i = nothing := by
  have h3 : S.callPart i = none := by
    unfold Sys.callPart
    split
    · exact Cfg.rest_none fun op ⟨_, _, hc, _⟩ => by rw [h2] at hc; cases hc
    · rfl
  unfold Sys.left
  rw [h3]
  unfold Sys.cmpPart nothing
  rw [h1]

/-! ## Less and less is left to do -/

theorem Ahead.vec_other {S S' : Sys α β} {s : Side} (h : Ahead S S' k T s T') {u : Nat} {c : Cid}
    (hne : ¬ (u = T.vecOf s ∧ c = T'.cid s)) : (S'.vec u).calls c = (S.vec u).calls c := by
  obtain ⟨κ', hv, hs, hlt, hc⟩ := h.acts.vec
  rw [hv]
  by_cases hu : u = T.vecOf s
  · subst hu
    rw [upd_same]
    exact hc c fun he => hne ⟨rfl, he⟩
  · rw [upd_other _ _ hu]

theorem Ahead.callPart {S S' : Sys α β} {s : Side} (hI : SysInv m S) (h : Ahead S S' k T s T')
    (i : Nat) : S'.callPart i = S.callPart i := by
  have hA := h.acts
  have hk' : S'.cmp k = some T' := by rw [hA.cmp', upd_same]
  unfold Sys.callPart
  generalize i.unpair.1 = u
  generalize i.unpair.2 = c
  by_cases hme : u = T.vecOf s ∧ c = T'.cid s
  · obtain ⟨rfl, rfl⟩ := hme
    have h1 : ¬ S'.Foreign (T.vecOf s) (T'.cid s) := fun hf => hf k T' s hk' (hA.keeps.vecOf s) rfl
    rw [if_neg h1]
    rcases hA.mine with h2 | h2
    · rw [if_neg fun hf => hf k T s hA.cmp rfl h2.symm]
    · split
      · refine (Cfg.rest_none fun op ⟨r, p, hc, _⟩ => ?_).symm
        rw [(hI.reach _).new _ (Nat.le_of_eq h2.symm)] at hc
        cases hc
      · rfl
  · have hcalls := h.vec_other hme
    rw [Cfg.rest_eq (Cfg.at_eq hcalls)]
    by_cases hold : u = T.vecOf s ∧ c = T.cid s
    · obtain ⟨rfl, rfl⟩ := hold
      have hne : T'.cid s ≠ T.cid s := fun he => hme ⟨rfl, he.symm⟩
      have := Cfg.rest_none (h.old hne)
      rw [this]
      simp
    · have : S'.Foreign u c ↔ S.Foreign u c := by
        constructor
        · intro hf k1 T1 s1 h1 h2 h3
          by_cases hkk : k1 = k
          · subst hkk
            rw [hA.cmp] at h1
            cases h1
            by_cases hs : s1 = s
            · subst hs; exact hold ⟨h2.symm, h3.symm⟩
            · exact hf k1 T' s1 hk' (by rw [hA.keeps.vecOf]; exact h2) (by rw [hA.other _ hs]; exact h3)
          · exact hf k1 T1 s1 (by rw [hA.cmp', upd_other _ _ hkk]; exact h1) h2 h3
        · intro hf k1 T1 s1 h1 h2 h3
          by_cases hkk : k1 = k
          · subst hkk
            rw [hk'] at h1
            cases h1
            by_cases hs : s1 = s
            · subst hs; exact hme ⟨by rw [← h2, hA.keeps.vecOf], h3.symm⟩
            · exact hf k1 T s1 hA.cmp (by rw [← hA.keeps.vecOf]; exact h2) (by rw [← hA.other _ hs]; exact h3)
          · rw [hA.cmp', upd_other _ _ hkk] at h1
            exact hf k1 T1 s1 h1 h2 h3
      by_cases hf : S.Foreign u c
      · rw [if_pos hf, if_pos (this.2 hf)]
      · rw [if_neg hf, if_neg fun hf' => hf (this.1 hf')]

theorem Ahead.cmpPart_other {S S' : Sys α β} {s : Side} (hI : SysInv m S) (h : Ahead S S' k T s T') {k1 : Nat} (hne : k1 ≠ k) :
    S'.cmpPart k1 = S.cmpPart k1 := by
  have hA := h.acts
  have hc : S'.cmp k1 = S.cmp k1 := by rw [hA.cmp', upd_other _ _ hne]
  rcases h1 : S.cmp k1 with _ | T1
  · unfold Sys.cmpPart; rw [hc, h1]
  · rw [Sys.cmpPart_some h1, Sys.cmpPart_some (hc.trans h1),
      Cfg.rest_eq (Cfg.at_eq (hA.quiet hI (s' := .left) h1 fun hh => hne hh.1).same),
      Cfg.rest_eq (Cfg.at_eq (hA.quiet hI (s' := .right) h1 fun hh => hne hh.1).same)]

/-- A call that is not part of a comparison gets ahead. -/
structure SysGoes (S S' : Sys α β) (u : Nat) (c : Cid) : Prop where
  step : SysStep S S'
  cmp : S'.cmp = S.cmp
  other : ∀ u' c', ¬ (u' = u ∧ c' = c) → (S'.vec u').calls c' = (S.vec u').calls c'
  less : Less ((S'.vec u).rest c) ((S.vec u).rest c)
  gets : S.CallAhead S' u c
  called : ∀ u c op, (S'.vec u).Called c op → (S.vec u).Called c op
  maxCap : ∀ u, (S'.vec u).mem.maxCap = (S.vec u).mem.maxCap
  vecStep : VecStep S S'
  made : ∀ u c, (S.vec u).calls c = none → (S'.vec u).calls c = none

/-- A call that is not part of a comparison and not blocked can get ahead. -/
theorem SysInv.goes {S : Sys α β} (hI : SysInv m S) (hW : ∀ u, Fine (S.vec u)) {u : Nat} {c : Cid}
    (hr : ∃ op, (S.vec u).Running c op) (hf : S.Foreign u c) (hb : ¬ (S.vec u).Blocked c) : ∃ S', SysGoes S S' u c := by
  obtain ⟨κ', ha⟩ := Cfg.advances hr hb
  have hst : SysStep S ⟨upd S.vec u κ', S.cmp⟩ := .vec _ u κ' ha.1.step fun k T s hk hu => ha.1.calls (hf k T s hk hu)
  have hvs : upd S.vec u κ' u = κ' := upd_same _ _ _
  have hoth : ∀ u' c', ¬ (u' = u ∧ c' = c) → (upd S.vec u κ' u').calls c' = (S.vec u').calls c' := by
    intro u' c' hne
    by_cases hu : u' = u
    · subst hu
      rw [upd_same]
      exact ha.1.calls fun hc => hne ⟨rfl, hc⟩
    · rw [upd_other _ _ hu]
  obtain ⟨op, r, p, hc, ho, hrp⟩ := hr
  refine ⟨_, hst, rfl, hoth, ?_, ⟨hst, hf, ?_⟩, ?_, ?_, ?_, ?_⟩
  · simp only [upd_same]
    exact ha.1.step.rest_less (hI.reach u).new hc ha.2
  · simp only [upd_same]; exact ha
  · intro u' c' op' hcall
    by_cases hu : u' = u
    · subst hu; simp only [upd_same] at hcall; exact (ha.1.same.2 _ _).1 hcall
    · simp only [upd_other _ _ hu] at hcall; exact hcall
  · intro u'
    by_cases hu : u' = u
    · subst hu; simp only [upd_same]; exact (hW _).maxCap ha.1.step ⟨op, r, p, hc, ho, hrp⟩
    · simp only [upd_other _ _ hu]
  · intro u'
    by_cases hu : u' = u
    · subst hu; simp only [upd_same]; exact .inr ha.1.step
    · simp only [upd_other _ _ hu]; exact .inl trivial
  · intro u' c' hn
    by_cases hne : u' = u ∧ c' = c
    · obtain ⟨rfl, rfl⟩ := hne
      rw [hc] at hn; cases hn
    · exact (hoth u' c' hne).trans hn

theorem Sys.Runs.trans {S S' S'' : Sys α β} (h : S.Runs S') (h' : S'.Runs S'') : S.Runs S'' := by
  induction h' with
  | refl => exact h
  | step _ hm ih => exact .step ih hm

theorem SysExec.extend (h : SysExec m n S) {S' : Sys α β} (hs : SysStep (S n) S') : SysExec m (n + 1) (upd S (n + 1) S') where
  init := by rw [upd_other _ _ (by omega)]; exact h.init
  next t ht := by
    by_cases htn : t = n
    · subst htn
      rw [upd_same, upd_other _ _ (by omega)]
      exact hs
    · rw [upd_other _ _ (by omega), upd_other _ _ (by omega)]
      exact h.next t (by omega)

theorem SysGoes.left_less {S S' : Sys α β} {u : Nat} {c : Cid} (hG : SysGoes S S' u c) (hfo : S.Foreign u c) :
    PartLess (S'.left (Nat.pair u c)) (S.left (Nat.pair u c)) ∧ ∀ d, d ≠ Nat.pair u c → S'.left d = S.left d := by
  have hfor : ∀ u c, S'.Foreign u c ↔ S.Foreign u c := fun u c => by unfold Sys.Foreign; rw [hG.cmp]
  have hcp : ∀ k, S'.cmpPart k = S.cmpPart k := by
    intro k
    rcases hk : S.cmp k with _ | T
    · unfold Sys.cmpPart; rw [hG.cmp, hk]
    · rw [Sys.cmpPart_some hk, Sys.cmpPart_some (by rw [hG.cmp]; exact hk),
        Cfg.rest_eq (Cfg.at_eq (hG.other _ _ fun hh => hfo k T .left hk hh.1 hh.2)),
        Cfg.rest_eq (Cfg.at_eq (hG.other _ _ fun hh => hfo k T .right hk hh.1 hh.2))]
  refine ⟨?_, fun d hd => ?_⟩
  · unfold Sys.left
    rw [hcp]
    refine .fst ?_
    unfold Sys.callPart
    rw [Nat.unpair_pair]
    dsimp only
    rw [if_pos hfo, if_pos ((hfor u c).2 hfo)]
    exact hG.less
  · unfold Sys.left
    rw [hcp]
    congr 1
    unfold Sys.callPart
    rw [Cfg.rest_eq (Cfg.at_eq (hG.other _ _ fun hh => hd (by rw [← hh.1, ← hh.2, Nat.pair_unpair])))]
    by_cases hf' : S.Foreign d.unpair.1 d.unpair.2
    · rw [if_pos hf', if_pos ((hfor _ _).2 hf')]
    · rw [if_neg hf', if_neg fun hf2 => hf' ((hfor _ _).1 hf2)]

/-- What is left to do decreases. -/
theorem Ahead.left_less {s : Side} {S' : Sys α β} (hI : SysInv m (S n)) (hW : ∀ u, Fine ((S n).vec u))
    (hP : ∀ k T, (S n).cmp k = some T → Phase S n k T) (hA : Ahead (S n) S' k T s T') :
    PartLess (S'.left k) ((S n).left k) ∧ ∀ d, d ≠ k → S'.left d = (S n).left d := by
  refine ⟨?_, fun d hd => ?_⟩
  · unfold Sys.left
    rw [hA.callPart hI]
    obtain ⟨T1, h1⟩ := hA.gets.1.onward hI hW hP hA.acts.cmp
    exact .snd (h1.ahead hA.acts.cmp hA.gets)
  · unfold Sys.left
    rw [hA.callPart hI, hA.cmpPart_other hI hd]

theorem Ahead.upwards {S S' : Sys α β} {s : Side} {rank : Nat → Nat} (hA : Ahead S S' k T s T') (hc : S.Comparing k)
    (h : S.Upwards rank) : S'.Upwards rank := by
  intro k1 T1 h1 h2
  by_cases hkk : k1 = k
  · subst hkk
    rw [hA.acts.cmp', upd_same] at h1
    cases h1
    have := h k1 T hA.acts.cmp hc
    unfold Verif.Cmp.Upwards at this ⊢
    rw [hA.acts.keeps.u, hA.acts.keeps.v, hA.acts.keeps.p, hA.acts.keeps.q]
    exact this
  · have h3 : S'.cmp k1 = S.cmp k1 := by rw [hA.acts.cmp', upd_other _ _ hkk]
    rw [h3] at h1
    refine h k1 T1 h1 ?_
    obtain ⟨T2, g1, g2⟩ := h2
    exact ⟨T2, h3 ▸ g1, g2⟩

theorem SysGoes.upwards {S S' : Sys α β} {u : Nat} {c : Cid} {rank : Nat → Nat} (hG : SysGoes S S' u c) (h : S.Upwards rank) :
    S'.Upwards rank := by
  intro k T g1 g2
  rw [hG.cmp] at g1
  refine h k T g1 ?_
  obtain ⟨T2, g3, g4⟩ := g2
  exact ⟨T2, hG.cmp ▸ g3, g4⟩

/-- The calls that comparisons make are always allowed. -/
theorem allowed_cmp {D : Mode} (hn : ¬ D.nolock) {op : Op α β} (h : op = .iter ∨ ∃ e, op = .elCloned e) : Allowed D op := by
  rcases h with rfl | ⟨e, rfl⟩
  · exact ⟨fun i _ => ⟨id, trivial⟩, (fun e he => by cases he), fun h => (hn h).elim, fun _ _ h => h.elim⟩
  · exact ⟨fun i _ => ⟨id, trivial⟩, (fun e he => by cases he), fun h => (hn h).elim, fun _ _ h => h.elim⟩

/-- All work can be finished. -/
theorem SysExec.completes (hm : ∀ u, InitMem (m u) (l u)) (rank : Nat → Nat) {n : Nat} {S : Nat → Sys α β} (h : SysExec m n S)
    (hd : (S n).Disciplined) (hs : (S n).SwapsUp) (hup : (S n).Upwards rank) (hsc : (S n).SafeClosures)
    (hx : ∀ u c op, ((S n).vec u).Panicked c op .maxCapacity → ((S n).vec u).mem.maxCap = (m u).maxCap) :
    ∃ S', (S n).Runs S' ∧ S'.Idle := by
  have main : ∀ (D : Nat → Mode) (mx : Nat → Nat) (N : Nat) (f : Nat → Option (Prog α (Ret α β)) × Job α β) (n : Nat) (S : Nat → Sys α β)
      (K : Nat → Cid → Know), SysExec m n S → (S n).left = f → (∀ i, N ≤ i → f i = nothing) → (∀ u, (D u).ordered ∧ ¬ (D u).nolock) →
      (∀ u c op, ((S n).vec u).Called c op → Allowed (D u) op) → (S n).Disciplined → (S n).Upwards rank → (S n).SafeClosures →
      (∀ u, ((S n).vec u).mem.maxCap = mx u) → Ghost D mx (fun u => (l u).length) (S n) K → ∃ S', (S n).Runs S' ∧ S'.Idle := by
    intro D mx N f
    induction f using (oneLess_wf nothing partLess_wf N).induction with
    | _ f ih =>
      intro n S K h hf hN hord hall hd hup hsc hmx hG
      have hI := h.inv (Nat.le_refl n)
      have hW := h.fine hm hd (Nat.le_refl n)
      have hP := h.phase hm hd (Nat.le_refl n)
      by_cases hidle : (S n).Idle
      · exact ⟨_, .refl, hidle⟩
      have hb : (∃ k, (S n).Comparing k) ∨ ∃ u c, ∃ op, ((S n).vec u).Running c op := by
        refine Classical.byContradiction fun hno => hidle ⟨fun k hk => hno (.inl ⟨k, hk⟩), fun u c op hr => ?_⟩
        exact hno (.inr ⟨u, c, op, hr⟩)
      -- the rest of the work
      have next : ∀ {S' : Sys α β}, (S n).Works S' → OneLess PartLess N S'.left f →
          (∀ u c op, (S'.vec u).Called c op → ((S n).vec u).Called c op ∨ op = .iter ∨ ∃ e, op = .elCloned e) →
          S'.Upwards rank → VecStep (S n) S' →
          (∀ u, (S'.vec u).mem.maxCap = ((S n).vec u).mem.maxCap) → ∃ S', (S n).Runs S' ∧ S'.Idle := by
        intro S' hw hless hcalled hup' hvs hmc
        have hS' : (upd S (n + 1) S') (n + 1) = S' := upd_same _ _ _
        have hall' : ∀ u c op, (S'.vec u).Called c op → Allowed (D u) op := fun u c op hc =>
          (hcalled u c op hc).elim (hall u c op) (allowed_cmp (hord u).2)
        have hd' : S'.Disciplined := by
          intro u c e hc c' op hc'
          rcases hcalled u c _ hc with h1 | h1 | ⟨_, h1⟩
          · rcases hcalled u c' op hc' with h2 | h2
            · exact hd u c e h1 c' op h2
            · rcases h2 with rfl | ⟨e', rfl⟩ <;> exact ⟨id, trivial⟩
          · cases h1
          · cases h1
        have hG' : ∃ K', Ghost D mx (fun u => (l u).length) S' K' := by
          have h1 : ∀ u, ∃ K', (∃ K0, WInv (D u) (mx u) (l u).length (S'.vec u) K' K0) ∧ PInv (l u).length (S'.vec u) K' := by
            intro u
            obtain ⟨K0, hw⟩ := hG.w u
            rcases hvs u with h3 | h3
            · rw [h3]; exact ⟨K u, ⟨K0, hw⟩, hG.p u⟩
            · obtain ⟨K', K0', g1, g2, -⟩ := PInv.step hw (hG.p u) h3 (hall' u) fun _ _ _ => by rw [hmc u, hmx u]
              exact ⟨K', ⟨K0', g1⟩, g2⟩
          choose K' hK using h1
          refine ⟨K', fun u => (hK u).1, fun u => (hK u).2, fun u => ?_⟩
          rcases hvs u with h3 | h3
          · rw [h3]; exact hG.b u
          · exact binv (.step (hI.reach u) h3)
        obtain ⟨K', hG'⟩ := hG'
        have hrest : ∃ S2, (upd S (n + 1) S' (n + 1)).Runs S2 ∧ S2.Idle := by
          refine ih _ hless (n + 1) (upd S (n + 1) S') K' (h.extend hw.1) (by rw [hS']) ?_ hord ?_ ?_ ?_ ?_ ?_ ?_
          · intro i hi
            obtain ⟨j, hj, -, h3⟩ := hless
            rw [h3 i (by omega)]
            exact hN i hi
          · rw [hS']; exact hall'
          · rw [hS']; exact hd'
          · rw [hS']; exact hup'
          · rw [hS']
            intro u c op hc
            rcases hcalled u c _ hc with h3 | rfl | ⟨e, rfl⟩
            · exact hsc u c op h3
            · intro f hf; cases hf
            · intro f hf; cases hf
          · rw [hS']; exact fun u => (hmc u).trans (hmx u)
          · rw [hS']; exact hG'
        rw [hS'] at hrest
        obtain ⟨S'', h1, h2⟩ := hrest
        exact ⟨S'', (Sys.Runs.step .refl hw).trans h1, h2⟩
      have hg : (S n).GrowthIntact mx := by
        intro u
        obtain ⟨K0, hw⟩ := hG.w u
        rw [← hmx u]
        exact intact_of_safe hw (hsc u)
      obtain ⟨R, hR⟩ := h.rank_bound rank (Nat.le_refl n)
      rcases Weak.moving hI hG hP (fun u => (hord u).1) hg hup hR hb with ⟨k, hk, hw⟩ | ⟨u, c, hr, hfo, hbl⟩
      · have hcmp := hk
        obtain ⟨T, hT, -⟩ := hk
        obtain ⟨S', s, T', hA⟩ := (hP k T hT).ahead hI hW hT hcmp hw
        have hk' : S'.cmp k = some T' := by rw [hA.acts.cmp', upd_same]
        obtain ⟨hlk, hlo⟩ := hA.left_less hI hW hP
        refine next ⟨hA.gets.1, fun k1 hk1 => ?_, fun u c h1 h2 hfo => ?_⟩ ⟨k, ?_, ?_, fun d hd => ?_⟩ hA.called ?_ hA.acts.vecStep hA.maxCap
        · have : k1 ≠ k := by rintro rfl; rw [hT] at hk1; cases hk1
          rw [hA.acts.cmp', upd_other _ _ this]; exact hk1
        · by_cases hme : u = T.vecOf s ∧ c = T'.cid s
          · obtain ⟨rfl, rfl⟩ := hme
            exact hfo k T' s hk' (hA.acts.keeps.vecOf s) rfl
          · rw [hA.vec_other hme] at h2
            exact h2 h1
        · refine Nat.lt_of_not_le fun hle => ?_
          rw [hf, hN k hle] at hlk
          exact partLess_nothing hlk
        · rw [← hf]; exact hlk
        · rw [← hf]; exact hlo d hd
        · exact hA.upwards hcmp hup
      · obtain ⟨S', hgo⟩ := hI.goes hW hr hfo hbl
        obtain ⟨hlk, hlo⟩ := hgo.left_less hfo
        refine next ⟨hgo.step, fun k1 hk1 => ?_, fun u c h1 h2 => (h2 (hgo.made u c h1)).elim⟩ ⟨Nat.pair u c, ?_, ?_, fun d hd => ?_⟩
          (fun u c op hc => .inl (hgo.called u c op hc)) (hgo.upwards hup) hgo.vecStep hgo.maxCap
        · rw [hgo.cmp]; exact hk1
        · refine Nat.lt_of_not_le fun hle => ?_
          rw [hf, hN _ hle] at hlk
          exact partLess_nothing hlk
        · rw [← hf]; exact hlk
        · rw [← hf]; exact hlo d hd
  obtain ⟨N, hN⟩ := h.bound (Nat.le_refl n)
  obtain ⟨K, hG⟩ := (h.inv (Nat.le_refl n)).ghost hm hd hs
  refine main (S n).mode (fun u => ((S n).vec u).mem.maxCap) N _ n S K h rfl (fun i hi => Sys.left_nothing (hN i hi).1 (hN i hi).2)
    (fun _ => ⟨fun _ _ h => h, id⟩) (fun u c op hc => allowed_ordered (hd u) (hs u) hc) hd hup hsc (fun _ => rfl) ⟨fun u => ?_, hG.p, hG.b⟩
  obtain ⟨K0, hw⟩ := hG.w u
  exact ⟨K0, hw.other fun c op hc => Nat.le_of_eq (hx u c op hc)⟩

end Verif.Weak
