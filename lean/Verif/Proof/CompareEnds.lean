import Verif.Proof.CompareProgress
import Verif.Weak.Progress
import Mathlib.Data.Nat.Pairing

/-!
# Comparisons can be carried through to the end, for C56
-/

namespace Verif

variable {α β : Type} {m : Nat → Mem α} {l : Nat → List α} {S : Nat → Sys α β} {n k : Nat} {T T' : Cmp α β}

/-! ## A comparison that does not wait -/

namespace Client

/-- What a program goes on with. -/
inductive Sub : Client α β → Client α β → Prop where
  | call (s : Side) (op : Op α β) (K : Client α β) : Sub K (.call s op K)
  | step (s : Side) (K : Client α β) : Sub K (.step s K)
  | fin (s : Side) (K : Ret α β → Client α β) (x : Ret α β) : Sub (K x) (.fin s K)

theorem sub_wf : WellFounded (Sub : Client α β → Client α β → Prop) := by
  refine ⟨fun p => ?_⟩
  induction p with
  | ret b => exact ⟨_, fun q h => by cases h⟩
  | panic b => exact ⟨_, fun q h => by cases h⟩
  | call s op K ih => exact ⟨_, fun q h => by cases h; exact ih⟩
  | step s K ih => exact ⟨_, fun q h => by cases h; exact ih⟩
  | fin s K ih => exact ⟨_, fun q h => by cases h; exact ih _⟩

end Client

/-- A running call that is not blocked makes a step that counts. -/
theorem CfgInv.step_of_not_blocked {σ : SpecSt α} {κ : Cfg α β} (h : CfgInv σ κ) {c : Cid} {r : Rec α β} {a : Act α}
    {again : a.Resp → Bool} {g : a.Resp → Prog α (Ret α β)} (hc : κ.calls c = some r) (hr : r.status = .running (.step a again g))
    (hb : ¬ κ.Blocked c) : ∃ w' b, κ.w.exec c a = some (w', b) ∧ again b = false := by
  obtain ⟨hsafe, -⟩ := h.running hc hr
  obtain ⟨hpre, hex⟩ := hsafe _ h.inv (.refl _ _)
  obtain ⟨w', b, he, -⟩ := exec_ok h.inv hpre
  refine ⟨w', b, he, ?_⟩
  cases hab : again b with
  | false => rfl
  | true =>
    obtain ⟨rfl, hok⟩ := (hex w' b he).2.1 hab
    exact (hb (h.blocked_iff.2 ⟨r, a, again, g, b, hc, hr, he, hab, hok⟩)).elim

/-- `iter` never waits. -/
theorem Reach.iter_not_blocked {m : Mem α} {l : List α} {κ : Cfg α β} (hR : Reach m l κ) (hm : InitMem m l) {c : Cid}
    (hr : κ.Running c .iter) : ¬ κ.Blocked c := by
  intro hb
  have h := hR.inv hm
  obtain ⟨r, a, again, k, b, hc', hr', he, hag, hok⟩ := h.blocked_iff.1 hb
  obtain ⟨ct, st, p, hc⟩ := hr
  rw [hc] at hc'
  cases hc'
  have hnl := hR.noLock hc hr' (by simp [Op.Locks])
  cases a <;> simp only [BlockOK] at hok
  · obtain ⟨-, -, i, h1, h2, h3, h4⟩ := hok
    have hlen : l.length ≤ i := Nat.le_of_lt (Nat.lt_of_le_of_lt h.len0_cap h1)
    obtain ⟨b, n, hres, -, -⟩ := Legal.owner_reserved h.inv.legal (i := i) (by rw [← h.inv.spec_eq]; exact h2) hlen
    rw [← h.inv.spec_eq, h4] at hres
    obtain ⟨op', hc2, hs2⟩ := h.reserve_call hres
    have := Cfg.Called.unique (op := .iter) ⟨ct, st, _, hc⟩ hc2
    subst this
    cases hs2
  · exact hnl.1 _ _ _ _ _ rfl

section phase

/-- The calls of a comparison are possible. -/
theorem Phase.needs (hP : Phase S n k T) {s : Side} {op : Op α β} {K : Client α β} (ht : T.prog = .call s op K) :
    (∀ i ∈ op.needs, ((S n).vec (T.vecOf s)).Revealed i) ∧ op.needsPtr = [] ∧ (op = .iter ∨ ∃ e, op = .elCloned e) := by
  cases hP with
  | callL hp hq h =>
    rw [h] at ht; cases ht
    exact ⟨fun i hi => by simp [Op.needs] at hi, rfl, .inl rfl⟩
  | callR es hq hl hr h =>
    rw [h] at ht; cases ht
    exact ⟨fun i hi => by simp [Op.needs] at hi, rfl, .inl rfl⟩
  | locking es fs j e f hH he hf h =>
    cases h with
    | callL h =>
      rw [h] at ht; cases ht
      refine ⟨fun i hi => ?_, rfl, .inr ⟨e, rfl⟩⟩
      simp only [Op.needs, List.mem_singleton] at hi
      subst hi
      exact hH.revL _ (List.mem_of_getElem? he)
    | callR hl h =>
      rw [h] at ht; cases ht
      refine ⟨fun i hi => ?_, rfl, .inr ⟨f, rfl⟩⟩
      simp only [Op.needs, List.mem_singleton] at hi
      subst hi
      exact hH.revR _ (List.mem_of_getElem? hf)
    | lockL hl h => rw [h] at ht; cases ht
    | lockR hl hr h => rw [h] at ht; cases ht
    | readL hl hr h => rw [h] at ht; cases ht
    | readR x hl hr h => rw [h] at ht; cases ht
  | finL hp hq ho hc h => rw [h] at ht; cases ht
  | finR es hq hl hr ho hc h => rw [h] at ht; cases ht
  | judging es fs j e f x y hH h => cases h <;> rename_i h <;> rw [h] at ht <;> cases ht
  | ret es fs rs b hH hv' h => rw [h] at ht; cases ht
  | fail es fs j hH h => rw [h] at ht; cases ht

theorem At.record {κ : Cfg α β} {c : Cid} {e : Nat} {st : Stage α} (h : At κ c e st) :
    ∃ r, κ.calls c = some r ∧ r.status = .running (st.prog e) := by
  obtain ⟨⟨ct, st, h1⟩, -⟩ := h
  exact ⟨_, h1, rfl⟩

/-- The call that shall perform an action has an action to perform. -/
theorem Phase.openStep (hP : Phase S n k T) {s : Side} {K : Client α β} (ht : T.prog = .step s K) :
    ∃ r a again g, ((S n).vec (T.vecOf s)).calls (T.cid s) = some r ∧ r.status = .running (.step a again g) := by
  have wait : ∀ {κ : Cfg α β} {c e}, At κ c e .wait → ∃ r a again g, κ.calls c = some r ∧ r.status = .running (.step a again g) := by
    intro κ c e h
    obtain ⟨r, h1, h2⟩ := h.record
    simp only [Stage.prog, elCloned_prog] at h2
    exact ⟨r, _, _, _, h1, h2⟩
  have held : ∀ {κ : Cfg α β} {c e}, At κ c e .held → ∃ r a again g, κ.calls c = some r ∧ r.status = .running (.step a again g) := by
    intro κ c e h
    obtain ⟨r, h1, h2⟩ := h.record
    exact ⟨r, _, _, _, h1, h2⟩
  cases hP with
  | locking es fs j e f hH he hf h =>
    cases h with
    | callL h => rw [h] at ht; cases ht
    | callR hl h => rw [h] at ht; cases ht
    | lockL hl h => rw [h] at ht; cases ht; exact wait hl
    | lockR hl hr h => rw [h] at ht; cases ht; exact wait hr
    | readL hl hr h => rw [h] at ht; cases ht; exact held hl
    | readR x hl hr h => rw [h] at ht; cases ht; exact held hr
  | callL hp hq h => rw [h] at ht; cases ht
  | callR es hq hl hr h => rw [h] at ht; cases ht
  | finL hp hq ho hc h => rw [h] at ht; cases ht
  | finR es hq hl hr ho hc h => rw [h] at ht; cases ht
  | judging es fs j e f x y hH h => cases h <;> rename_i h <;> rw [h] at ht <;> cases ht
  | ret es fs rs b hH hv' h => rw [h] at ht; cases ht
  | fail es fs j hH h => rw [h] at ht; cases ht

/-- The call that shall end is running and does not wait. -/
theorem Phase.openFin (hI : SysInv m l (S n)) (hm : ∀ u, InitMem (m u) (l u)) (hP : Phase S n k T) {s : Side}
    {K : Ret α β → Client α β} (ht : T.prog = .fin s K) :
    (∃ r p, ((S n).vec (T.vecOf s)).calls (T.cid s) = some r ∧ r.status = .running p) ∧
      ¬ ((S n).vec (T.vecOf s)).Blocked (T.cid s) := by
  have hI' : ∀ u, CfgInv (.ofList (l u)) ((S n).vec u) := fun u => (hI.reach u).inv (hm u)
  have iter : ∀ {u c}, ((S n).vec u).Running c .iter →
      (∃ r p, ((S n).vec u).calls c = some r ∧ r.status = .running p) ∧ ¬ ((S n).vec u).Blocked c := by
    intro u c h
    refine ⟨?_, (hI.reach u).iter_not_blocked (hm u) h⟩
    obtain ⟨ct, st, p, hc⟩ := h
    exact ⟨_, p, hc, rfl⟩
  have elem : ∀ {u c e st}, At ((S n).vec u) c e st → st ≠ .wait →
      (∃ r p, ((S n).vec u).calls c = some r ∧ r.status = .running p) ∧ ¬ ((S n).vec u).Blocked c := by
    intro u c e st h hne
    obtain ⟨r, h1, h2⟩ := h.record
    exact ⟨⟨r, _, h1, h2⟩, fun hb => hne (h.blocked (hI' u) hb).1⟩
  cases hP with
  | finL hp hq ho hc h => rw [h] at ht; cases ht; exact iter hc
  | finR es hq hl hr ho hc h => rw [h] at ht; cases ht; exact iter hc
  | judging es fs j e f x y hH h =>
    cases h with
    | both hl hr' h => rw [h] at ht; cases ht; exact elem hr' (by simp)
    | unlR hl hr' h => rw [h] at ht; cases ht; exact elem hr' (by simp)
    | left hl h => rw [h] at ht; cases ht; exact elem hl (by simp)
    | unlL hl h => rw [h] at ht; cases ht; exact elem hl (by simp)
  | locking es fs j e f hH he hf h => cases h <;> rename_i h <;> rw [h] at ht <;> cases ht
  | callL hp hq h => rw [h] at ht; cases ht
  | callR es hq hl hr h => rw [h] at ht; cases ht
  | ret es fs rs b hH hv' h => rw [h] at ht; cases ht
  | fail es fs j hH h => rw [h] at ht; cases ht

end phase

/-- A comparison gets ahead. -/
structure Ahead (S S' : Sys α β) (k : Nat) (T : Cmp α β) (s : Side) (T' : Cmp α β) : Prop where
  step : SysStep S S'
  acts : Acts S S' k T s T'
  near : Client.Sub T'.prog T.prog ∨ T'.prog = T.prog ∧ T'.own = T.own ∧ ∃ r r' p p', (S.vec (T.vecOf s)).calls (T.cid s) = some r ∧
    r.status = .running p ∧ (S'.vec (T.vecOf s)).calls (T.cid s) = some r' ∧ r'.status = .running p' ∧ Weak.Rest p' p
  counts : T'.own s ≠ T.own s ∨ (S'.vec (T.vecOf s)).calls (T.cid s) ≠ (S.vec (T.vecOf s)).calls (T.cid s)
  old : T'.cid s ≠ T.cid s → ∀ op, ¬ (S.vec (T.vecOf s)).Running (T.cid s) op
  called : ∀ u c op, (S'.vec u).Called c op → (S.vec u).Called c op ∨ op = .iter ∨ ∃ e, op = .elCloned e
  maxCap : ∀ u, (S'.vec u).w.mem.maxCap = (S.vec u).w.mem.maxCap

theorem CfgInv.exec_maxCap {σ : SpecSt α} {κ : Cfg α β} (h : CfgInv σ κ) {c : Cid} {r : Rec α β} {a : Act α}
    {again : a.Resp → Bool} {g : a.Resp → Prog α (Ret α β)} (hc : κ.calls c = some r) (hr : r.status = .running (.step a again g))
    {w' : World α} {b : a.Resp} (he : κ.w.exec c a = some (w', b)) : w'.mem.maxCap = κ.w.mem.maxCap := by
  obtain ⟨hsafe, -⟩ := h.running hc hr
  obtain ⟨hpre, -⟩ := hsafe _ h.inv (.refl _ _)
  exact ((exec_inv h.inv hpre he).2 (c + 1) (Nat.succ_ne_self c)).maxCap

/-- A step of an open call. -/
theorem Ahead.opened {S S' : Sys α β} (hI : SysInv m l S) (hm : ∀ u, InitMem (m u) (l u)) (hk : S.cmp k = some T)
    {s : Side} {r r' : Rec α β} {κ' : Cfg α β} {K : Client α β}
    (hcl : (S.vec (T.vecOf s)).calls (T.cid s) = some r) (hop : r'.op = r.op)
    (hs : Step (S.vec (T.vecOf s)) κ') (hcalls : κ'.calls = upd (S.vec (T.vecOf s)).calls (T.cid s) (some r'))
    (hmc : κ'.w.mem.maxCap = (S.vec (T.vecOf s)).w.mem.maxCap)
    (hne : r' ≠ r) (hst : SysStep S S') (hv : S'.vec = upd S.vec (T.vecOf s) κ')
    (hc : S'.cmp = upd S.cmp k (some { T with prog := K }))
    (hnear : Client.Sub K T.prog ∨ K = T.prog ∧ ∃ p p', r.status = .running p ∧ r'.status = .running p' ∧ Weak.Rest p' p) :
    Ahead S S' k T s { T with prog := K } := by
  have hvs : S'.vec (T.vecOf s) = κ' := by rw [hv, upd_same]
  have hcl' : (S'.vec (T.vecOf s)).calls (T.cid s) = some r' := by rw [hvs, hcalls, upd_same]
  refine ⟨hst, Acts.open hI hm hk hcl hs hcalls hv hc, ?_, .inr ?_, fun hh => (hh rfl).elim, ?_, ?_⟩
  · rcases hnear with h1 | ⟨h1, p, p', h2, h3, h4⟩
    · exact .inl h1
    · exact .inr ⟨h1, rfl, r, r', p, p', hcl, h2, hcl', h3, h4⟩
  · rw [hcl', hcl]
    intro he
    exact hne (Option.some.inj he)
  · intro u c op hcall
    left
    by_cases hu : u = T.vecOf s
    · subst hu
      rw [hvs] at hcall
      obtain ⟨ct, st, x, hcc⟩ := hcall
      rw [hcalls] at hcc
      by_cases hcd : c = T.cid s
      · subst hcd
        rw [upd_same] at hcc
        obtain ⟨op', ct', st', x'⟩ := r
        cases hcc
        simp only at hop
        subst hop
        exact ⟨_, _, _, hcl⟩
      · simp only [upd_other _ _ hcd] at hcc
        exact ⟨_, _, _, hcc⟩
    · rw [hv, upd_other _ _ hu] at hcall
      exact hcall
  · intro u
    by_cases hu : u = T.vecOf s
    · subst hu; rw [hvs, hmc]
    · rw [hv, upd_other _ _ hu]

/-- A comparison makes a call. -/
theorem SysExec.ahead_call (h : SysExec m l n S) (hm : ∀ u, InitMem (m u) (l u)) (hk : (S n).cmp k = some T) {s : Side} {op : Op α β}
    {K : Client α β} (ht : T.prog = .call s op K) {S' : Sys α β} (hst : SysStep (S n) S')
    (hv : S'.vec = upd (S n).vec (T.vecOf s) (((S n).vec (T.vecOf s)).invoked op))
    (hc : S'.cmp = upd (S n).cmp k (some (T.opened s ((S n).vec (T.vecOf s)).next K))) :
    Ahead (S n) S' k T s (T.opened s ((S n).vec (T.vecOf s)).next K) := by
  have hO := h.ok hm (Nat.le_refl n)
  have hI := hO.toSysInv
  have hT := h.tidy hm (Nat.le_refl n) hk
  obtain ⟨h1, h2, h3⟩ := (hO.phase k T hk).needs ht
  have hp : ∀ i ∈ op.needsPtr, ((S n).vec (T.vecOf s)).RevealedPtr i := fun i hi => by rw [h2] at hi; cases hi
  refine ⟨hst, Acts.call hI hm hk h1 hp hv hc, .inl ?_, .inl ?_, fun _ => ?_, ?_, ?_⟩
  · rw [ht]; exact .call _ _ _
  · simp [Cmp.opened]
  · refine (hT.closed s).resolve_left ?_
    rw [ht]
    exact fun hh => hh.1 rfl
  · intro u c op' hcall
    rw [hv] at hcall
    by_cases hu : u = T.vecOf s
    · subst hu
      simp only [upd_same] at hcall
      obtain ⟨ct, st, x, hcc⟩ := hcall
      by_cases hcd : c = ((S n).vec (T.vecOf s)).next
      · subst hcd
        simp only [upd_same] at hcc
        cases hcc
        exact .inr h3
      · simp only [upd_other _ _ hcd] at hcc
        exact .inl ⟨_, _, _, hcc⟩
    · simp only [upd_other _ _ hu] at hcall
      exact .inl hcall
  · intro u
    rw [hv]
    by_cases hu : u = T.vecOf s
    · subst hu; simp only [upd_same]
    · simp only [upd_other _ _ hu]

/-- A comparison that does not wait gets ahead. -/
theorem SysExec.ahead (h : SysExec m l n S) (hm : ∀ u, InitMem (m u) (l u)) (hk : (S n).cmp k = some T) (hcmp : (S n).Comparing k)
    (hw : ¬ (S n).Waits k) : ∃ S' s T', Ahead (S n) S' k T s T' := by
  have hO := h.ok hm (Nat.le_refl n)
  have hI := hO.toSysInv
  have hI' : ∀ u, CfgInv (.ofList (l u)) ((S n).vec u) := fun u => (hI.reach u).inv (hm u)
  have hP := hO.phase k T hk
  cases ht : T.prog with
  | ret b =>
    obtain ⟨T1, h1, h2, -⟩ := hcmp
    rw [hk] at h1; cases h1
    exact (h2 b ht).elim
  | panic e =>
    obtain ⟨T1, h1, -, h2⟩ := hcmp
    rw [hk] at h1; cases h1
    exact (h2 e ht).elim
  | call s op K =>
    obtain ⟨h1, h2, h3⟩ := hP.needs ht
    have hp : ∀ i ∈ op.needsPtr, ((S n).vec (T.vecOf s)).RevealedPtr i := fun i hi => by rw [h2] at hi; cases hi
    exact ⟨_, s, _, h.ahead_call hm hk ht (.call _ _ _ _ _ _ _ hk ht rfl h1 hp) rfl rfl⟩
  | step s K =>
    obtain ⟨r, a, again, g, hcl, hr⟩ := hP.openStep ht
    obtain ⟨w', b, he, hab⟩ := (hI' _).step_of_not_blocked hcl hr fun hb => hw ⟨T, s, K, hk, ht, hb⟩
    refine ⟨_, s, _, Ahead.opened hI hm hk (s := s) (r := r) (r' := { r with status := .running (if again b then .step a again g else g b) }) (K := K) hcl rfl (.act _ _ _ _ _ _ _ _ hcl hr he) rfl ((hI' _).exec_maxCap hcl hr he) ?_
      (.step _ _ _ _ _ _ _ _ _ _ _ _ hk ht rfl hcl hr he) rfl ?_ (.inl ?_)⟩
    · intro hh
      have h4 := congrArg Rec.status hh
      simp only [hab, Bool.false_eq_true, if_false] at h4
      rw [hr] at h4
      simp only [Status.running.injEq] at h4
      exact Prog.cont_ne _ a again g b rfl h4
    · simp only [hab, Bool.false_eq_true, if_false]
    · rw [ht]; exact .step _ _
  | fin s K =>
    obtain ⟨⟨r, p, hcl, hr⟩, hnb⟩ := hP.openFin hI hm ht
    cases p with
    | ret x =>
      refine ⟨_, s, _, Ahead.opened hI hm hk (s := s) (r := r)
        (r' := { r with status := .done x ((S n).vec (T.vecOf s)).clock ((S n).vec (T.vecOf s)).w }) (K := K x) hcl rfl (.ret _ _ _ _ hcl hr) rfl rfl ?_
        (.finRet _ _ _ _ _ _ _ _ hk ht rfl hcl hr) rfl rfl (.inl ?_)⟩
      · intro hh
        have h4 := congrArg Rec.status hh
        rw [hr] at h4
        cases h4
      · rw [ht]; exact .fin _ _ _
    | panic pk => exact (hP.no_panic hI hm hcl hr (.inr ⟨K, ht⟩)).elim
    | step a again g =>
      obtain ⟨w', b, he, hab⟩ := (hI' _).step_of_not_blocked hcl hr hnb
      refine ⟨_, s, _, Ahead.opened hI hm hk (s := s) (r := r) (r' := { r with status := .running (if again b then .step a again g else g b) }) (K := T.prog) hcl rfl (.act _ _ _ _ _ _ _ _ hcl hr he) rfl ((hI' _).exec_maxCap hcl hr he) ?_
        (.finStep _ _ _ _ _ _ _ _ _ _ _ _ hk ht rfl hcl hr he) rfl ?_ (.inr ⟨rfl, _, _, hr, rfl, ?_⟩)⟩
      · intro hh
        have h4 := congrArg Rec.status hh
        simp only [hab, Bool.false_eq_true, if_false] at h4
        rw [hr] at h4
        simp only [Status.running.injEq] at h4
        exact Prog.cont_ne _ a again g b rfl h4
      · funext k'
        simp only [upd_apply]
        split
        · rename_i h; rw [h, hk]
        · rfl
      · exact ⟨a, again, g, b, rfl, by simp [hab]⟩

/-! ## What is left to do -/

/-- What a call still has to do. -/
def Cfg.rest (κ : Cfg α β) (c : Cid) : Option (Prog α (Ret α β)) :=
  match κ.calls c with
  | some ⟨_, _, _, .running p⟩ => some p
  | _ => none

theorem Cfg.rest_eq {κ κ' : Cfg α β} {c : Cid} (h : κ'.calls c = κ.calls c) : κ'.rest c = κ.rest c := by
  unfold Cfg.rest; rw [h]

theorem Cfg.rest_some {κ : Cfg α β} {c : Cid} {r : Rec α β} {p : Prog α (Ret α β)} (h : κ.calls c = some r)
    (hr : r.status = .running p) : κ.rest c = some p := by
  obtain ⟨op, ct, st, s⟩ := r
  simp only at hr
  subst hr
  unfold Cfg.rest; rw [h]

theorem Cfg.rest_none {κ : Cfg α β} {c : Cid} (h : ∀ op, ¬ κ.Running c op) : κ.rest c = none := by
  unfold Cfg.rest
  split
  · rename_i hc
    exact (h _ ⟨_, _, _, hc⟩).elim
  · rfl

/-- Less is left to do. -/
def Less : Option (Prog α (Ret α β)) → Option (Prog α (Ret α β)) → Prop
  | none, some _ => True
  | some q, some p => Weak.Rest q p
  | _, none => False

theorem less_wf : WellFounded (Less : Option (Prog α (Ret α β)) → Option (Prog α (Ret α β)) → Prop) := by
  have h0 : Acc (Less (α := α) (β := β)) none := ⟨_, fun q h => by cases q <;> exact h.elim⟩
  refine ⟨fun p => ?_⟩
  rcases p with _ | p
  · exact h0
  · induction p using Weak.rest_wf.induction with
    | _ p ih =>
      refine ⟨_, fun q h => ?_⟩
      rcases q with _ | q
      · exact h0
      · exact ih q h

/-- What a comparison still has to do: its program, and the programs of its two calls. -/
abbrev Job (α β : Type) := Client α β × Option (Prog α (Ret α β)) × Option (Prog α (Ret α β))

/-- Less is left to do. -/
def JobLess : Job α β → Job α β → Prop := Prod.Lex Client.Sub (Prod.GameAdd Less Less)

theorem jobLess_wf : WellFounded (JobLess : Job α β → Job α β → Prop) :=
  (Prod.lex ⟨_, Client.sub_wf⟩ ⟨_, less_wf.prod_gameAdd less_wf⟩).wf

namespace Sys

open Classical in
/-- What the call numbered `i` still has to do, if it is not part of a comparison. -/
noncomputable def callPart (S : Sys α β) (i : Nat) : Option (Prog α (Ret α β)) :=
  if S.Foreign i.unpair.1 i.unpair.2 then (S.vec i.unpair.1).rest i.unpair.2 else none

/-- What the comparison of thread `k` still has to do. -/
def cmpPart (S : Sys α β) (k : Nat) : Job α β :=
  match S.cmp k with
  | none => (.ret true, none, none)
  | some T => (T.prog, (S.vec T.u).rest (T.cid .left), (S.vec T.v).rest (T.cid .right))

/-- What is left to do. -/
noncomputable def left (S : Sys α β) (i : Nat) : Option (Prog α (Ret α β)) × Job α β := (S.callPart i, S.cmpPart i)

end Sys

/-- Less is left to do. -/
def PartLess : Option (Prog α (Ret α β)) × Job α β → Option (Prog α (Ret α β)) × Job α β → Prop := Prod.GameAdd Less JobLess

theorem partLess_wf : WellFounded (PartLess (α := α) (β := β)) := less_wf.prod_gameAdd jobLess_wf

/-- Nothing is left to do. -/
def nothing : Option (Prog α (Ret α β)) × Job α β := (none, .ret true, none, none)

theorem partLess_nothing {x : Option (Prog α (Ret α β)) × Job α β} : ¬ PartLess x nothing := by
  intro h
  cases h with
  | fst h => rename_i a; cases a <;> exact h
  | snd h =>
    cases h with
    | left _ _ h => cases h
    | right _ h =>
      cases h with
      | fst h => rename_i a; cases a <;> exact h
      | snd h => rename_i a; cases a <;> exact h

/-- Only one call is new or gets further. -/
theorem Step.one {κ κ' : Cfg α β} (h : Step κ κ') : ∃ c, ∀ d, d ≠ c → κ'.calls d = κ.calls d := by
  cases h with
  | invoke op hn hp => exact ⟨κ.next, fun d hd => upd_other _ _ hd⟩
  | act c r a again k w' b hc hr he => exact ⟨c, fun d hd => setStatus_other hd⟩
  | ub c r a again k hc hr he => exact ⟨0, fun d hd => rfl⟩
  | ret c r x hc hr => exact ⟨c, fun d hd => setStatus_other hd⟩
  | panic c r x hc hr => exact ⟨c, fun d hd => setStatus_other hd⟩
  | reserveMax n hidle => exact ⟨0, fun d hd => rfl⟩

theorem SysStep.one {S S' : Sys α β} (h : SysStep S S') : ∃ u c k, (∀ u', u' ≠ u → S'.vec u' = S.vec u') ∧
    (∀ d, d ≠ c → (S'.vec u).calls d = (S.vec u).calls d) ∧ ∀ k', k' ≠ k → S'.cmp k' = S.cmp k' := by
  cases h with
  | vec u κ' hs ho =>
    obtain ⟨c, hc⟩ := hs.one
    exact ⟨u, c, 0, fun u' hu => upd_other _ _ hu, fun d hd => by simp only [upd_same]; exact hc d hd, fun _ _ => rfl⟩
  | start k u v p q veq hk hp hq => exact ⟨0, 0, k, fun _ _ => rfl, fun _ _ => rfl, fun k' hk' => upd_other _ _ hk'⟩
  | call k T s op K κ hk ht hκ hn hp =>
    subst hκ
    exact ⟨T.vecOf s, _, k, fun u' hu => upd_other _ _ hu, fun d hd => by simp only [upd_same]; exact upd_other _ _ hd,
      fun k' hk' => upd_other _ _ hk'⟩
  | step k T s K κ r a again g w' b hk ht hκ hcl hr he =>
    subst hκ
    exact ⟨T.vecOf s, T.cid s, k, fun u' hu => upd_other _ _ hu, fun d hd => by simp only [upd_same]; exact setStatus_other hd,
      fun k' hk' => upd_other _ _ hk'⟩
  | finStep k T s K κ r a again g w' b hk ht hκ hcl hr he =>
    subst hκ
    exact ⟨T.vecOf s, T.cid s, k, fun u' hu => upd_other _ _ hu, fun d hd => by simp only [upd_same]; exact setStatus_other hd,
      fun k' hk' => rfl⟩
  | finRet k T s K κ r z hk ht hκ hcl hr =>
    subst hκ
    exact ⟨T.vecOf s, T.cid s, k, fun u' hu => upd_other _ _ hu, fun d hd => by simp only [upd_same]; exact setStatus_other hd,
      fun k' hk' => upd_other _ _ hk'⟩
  | panic k T s κ r pk hk ht hκ hcl hr =>
    subst hκ
    exact ⟨T.vecOf s, T.cid s, k, fun u' hu => upd_other _ _ hu, fun d hd => by simp only [upd_same]; exact setStatus_other hd,
      fun k' hk' => upd_other _ _ hk'⟩
  | ub k T s κ r a again g hk ht hκ hcl hr he =>
    subst hκ
    exact ⟨T.vecOf s, T.cid s, k, fun u' hu => upd_other _ _ hu, fun d hd => by simp only [upd_same], fun k' hk' => rfl⟩

/-- At any moment only finitely many calls and comparisons have been made. -/
theorem SysExec.bound (h : SysExec m l n S) : ∀ {t}, t ≤ n → ∃ N, ∀ i, N ≤ i →
    (S t).cmp i = none ∧ ((S t).vec i.unpair.1).calls i.unpair.2 = none := by
  intro t
  induction t with
  | zero => intro _; exact ⟨0, fun i _ => by rw [h.init]; exact ⟨rfl, rfl⟩⟩
  | succ t ih =>
    intro ht
    obtain ⟨N, hN⟩ := ih (by omega)
    obtain ⟨u, c, k, h1, h2, h3⟩ := (h.next t (by omega)).one
    refine ⟨max N (max (Nat.pair u c + 1) (k + 1)), fun i hi => ?_⟩
    obtain ⟨g1, g2⟩ := hN i (by omega)
    refine ⟨by rw [h3 i (by omega)]; exact g1, ?_⟩
    by_cases hu : i.unpair.1 = u
    · have hc : i.unpair.2 ≠ c := by
        intro hc
        have := Nat.pair_unpair i
        rw [hu, hc] at this
        omega
      rw [hu] at g2 ⊢
      rw [h2 _ hc]
      exact g2
    · rw [h1 _ hu]
      exact g2

theorem Sys.left_nothing {S : Sys α β} {i : Nat} (h1 : S.cmp i = none) (h2 : (S.vec i.unpair.1).calls i.unpair.2 = none) :
    S.left i = nothing := by
  have h3 : S.callPart i = none := by
    unfold Sys.callPart
    split
    · exact Cfg.rest_none fun op ⟨_, _, _, hc⟩ => by rw [h2] at hc; cases hc
    · rfl
  unfold Sys.left
  rw [h3]
  unfold Sys.cmpPart nothing
  rw [h1]

/-! ## Less and less is left to do -/

theorem Ahead.vec_other {S S' : Sys α β} {s : Side} (h : Ahead S S' k T s T') {u : Nat} {c : Cid}
    (hne : ¬ (u = T.vecOf s ∧ c = T'.cid s)) : (S'.vec u).calls c = (S.vec u).calls c := by
  obtain ⟨κ', hv, hs, hlt, hc⟩ := h.acts.vec
  rw [hv]
  by_cases hu : u = T.vecOf s
  · subst hu
    rw [upd_same]
    exact hc c fun he => hne ⟨rfl, he⟩
  · rw [upd_other _ _ hu]

theorem Ahead.callPart {S S' : Sys α β} {s : Side} (hI : SysInv m l S) (hm : ∀ u, InitMem (m u) (l u)) (h : Ahead S S' k T s T')
    (i : Nat) : S'.callPart i = S.callPart i := by
  have hA := h.acts
  have hk' : S'.cmp k = some T' := by rw [hA.cmp', upd_same]
  unfold Sys.callPart
  generalize i.unpair.1 = u
  generalize i.unpair.2 = c
  by_cases hme : u = T.vecOf s ∧ c = T'.cid s
  · obtain ⟨rfl, rfl⟩ := hme
    have h1 : ¬ S'.Foreign (T.vecOf s) (T'.cid s) := fun hf => hf k T' s hk' (hA.keeps.vecOf s) rfl
    rw [if_neg h1]
    rcases hA.mine with h2 | h2
    · rw [if_neg fun hf => hf k T s hA.cmp rfl h2.symm]
    · split
      · refine (Cfg.rest_none fun op ⟨ct, st, p, hc⟩ => ?_).symm
        have := (((hI.reach _).inv (hm _)).next _ _ hc).2
        rw [h2] at this
        exact Nat.lt_irrefl _ this
      · rfl
  · have hcalls := h.vec_other hme
    rw [Cfg.rest_eq hcalls]
    by_cases hold : u = T.vecOf s ∧ c = T.cid s
    · obtain ⟨rfl, rfl⟩ := hold
      have hne : T'.cid s ≠ T.cid s := fun he => hme ⟨rfl, he.symm⟩
      have := Cfg.rest_none (h.old hne)
      rw [this]
      simp
    · have : S'.Foreign u c ↔ S.Foreign u c := by
        constructor
        · intro hf k1 T1 s1 h1 h2 h3
          by_cases hkk : k1 = k
          · subst hkk
            rw [hA.cmp] at h1
            cases h1
            by_cases hs : s1 = s
            · subst hs; exact hold ⟨h2.symm, h3.symm⟩
            · exact hf k1 T' s1 hk' (by rw [hA.keeps.vecOf]; exact h2) (by rw [hA.other _ hs]; exact h3)
          · exact hf k1 T1 s1 (by rw [hA.cmp', upd_other _ _ hkk]; exact h1) h2 h3
        · intro hf k1 T1 s1 h1 h2 h3
          by_cases hkk : k1 = k
          · subst hkk
            rw [hk'] at h1
            cases h1
            by_cases hs : s1 = s
            · subst hs; exact hme ⟨by rw [← h2, hA.keeps.vecOf], h3.symm⟩
            · exact hf k1 T s1 hA.cmp (by rw [← hA.keeps.vecOf]; exact h2) (by rw [← hA.other _ hs]; exact h3)
          · rw [hA.cmp', upd_other _ _ hkk] at h1
            exact hf k1 T1 s1 h1 h2 h3
      by_cases hf : S.Foreign u c
      · rw [if_pos hf, if_pos (this.2 hf)]
      · rw [if_neg hf, if_neg fun hf' => hf (this.1 hf')]

theorem Sys.cmpPart_some {S : Sys α β} (h : S.cmp k = some T) :
    S.cmpPart k = (T.prog, (S.vec (T.vecOf .left)).rest (T.cid .left), (S.vec (T.vecOf .right)).rest (T.cid .right)) := by
  unfold Sys.cmpPart; rw [h]; rfl

theorem Ahead.cmpPart_other {S S' : Sys α β} {s : Side} (hI : SysInv m l S) (h : Ahead S S' k T s T') {k1 : Nat} (hne : k1 ≠ k) :
    S'.cmpPart k1 = S.cmpPart k1 := by
  have hA := h.acts
  have hc : S'.cmp k1 = S.cmp k1 := by rw [hA.cmp', upd_other _ _ hne]
  rcases h1 : S.cmp k1 with _ | T1
  · unfold Sys.cmpPart; rw [hc, h1]
  · rw [Sys.cmpPart_some h1, Sys.cmpPart_some (hc.trans h1),
      Cfg.rest_eq (hA.quiet hI (s' := .left) h1 fun hh => hne hh.1).same,
      Cfg.rest_eq (hA.quiet hI (s' := .right) h1 fun hh => hne hh.1).same]

theorem Ahead.cmpPart_less {S S' : Sys α β} {s : Side} (hI : SysInv m l S) (h : Ahead S S' k T s T') :
    JobLess (S'.cmpPart k) (S.cmpPart k) := by
  have hA := h.acts
  have hk' : S'.cmp k = some T' := by rw [hA.cmp', upd_same]
  rw [Sys.cmpPart_some hA.cmp, Sys.cmpPart_some hk']
  rcases h.near with h1 | ⟨h1, h2, r, r', p, p', h3, h4, h5, h6, h7⟩
  · exact .left _ _ h1
  · have hcid : ∀ s, T'.cid s = T.cid s := fun s => by unfold Cmp.cid; rw [h2]
    rw [h1, hcid, hcid, hA.keeps.vecOf, hA.keeps.vecOf]
    refine .right _ ?_
    have e1 := Cfg.rest_some h3 h4
    have e2 := Cfg.rest_some h5 h6
    cases s with
    | left =>
      rw [e1, e2, Cfg.rest_eq (hA.quiet hI (s' := .right) hA.cmp (by simp)).same]
      exact .fst h7
    | right =>
      rw [e1, e2, Cfg.rest_eq (hA.quiet hI (s' := .left) hA.cmp (by simp)).same]
      exact .snd h7

/-- A step that does not change the maximum capacity, when closures do not panic. -/
theorem CfgInv.intact_step {σ : SpecSt α} {κ κ' : Cfg α β} (h : CfgInv σ κ) (hs : Step κ κ')
    (hmc : κ'.w.mem.maxCap = κ.w.mem.maxCap) (hf : ∀ c f, κ.Called c (.pushForIdx f) → ∀ i, f i ≠ none)
    (hg : κ.GrowthIntact) : κ'.GrowthIntact := by
  have h' := h.step hs
  have hev := h.step_evolves hs
  intro c op k m hp ha
  -- a call that had panicked before
  have old : κ'.calls c = κ.calls c → (k = .maxCapacity → κ'.w.mem.maxCap = m.maxCap) ∧
      (∀ f, op = .pushForIdx f → k = .userCode → m.reserved ≤ κ'.w.mem.cap) := by
    intro he
    obtain ⟨ct, st, et, fin, hc⟩ := hp
    obtain ⟨r, t, w, hr, h1, h2⟩ := ha
    rw [he] at hc hr
    obtain ⟨g1, g2⟩ := hg c op k m ⟨ct, st, et, fin, hc⟩ ⟨r, t, w, hr, h1, h2⟩
    exact ⟨fun hk => hmc.trans (g1 hk), fun f ho hk => Nat.le_trans (g2 f ho hk) hev.cap⟩
  obtain ⟨ct, st, et, fin, hc⟩ := hp
  cases hs with
  | invoke op' hn hpp =>
    by_cases hcn : c = κ.next
    · subst hcn
      simp only [upd_same] at hc
      cases hc
    · exact old (upd_other _ _ hcn)
  | act c' r a again g w' b hc' hr he =>
    by_cases hcc : c = c'
    · subst hcc
      have := setStatus_self.symm.trans hc
      cases this
    · exact old (setStatus_other hcc)
  | ub c' r a again g hc' hr he => exact old rfl
  | ret c' r x hc' hr =>
    by_cases hcc : c = c'
    · subst hcc
      have := setStatus_self.symm.trans hc
      cases this
    · exact old (setStatus_other hcc)
  | panic c' r x hc' hr =>
    by_cases hcc : c = c'
    · subst hcc
      obtain ⟨r1, t, w, hr1, h1, rfl⟩ := ha
      obtain ⟨U, d, hi⟩ := h'.panicked hc
      have h2 := setStatus_self.symm.trans hc
      have h3 := setStatus_self.symm.trans hr1
      obtain ⟨op1, ct1, st1, s1⟩ := r
      cases h2
      cases h3
      cases h1
      refine ⟨fun _ => rfl, ?_⟩
      rintro f rfl rfl
      obtain ⟨i, -, -, -, ⟨hx, -⟩ | ⟨-, hx⟩⟩ := hi.out
      · cases hx
      · exact (hf c f ⟨_, _, _, hc'⟩ i hx).elim
    · exact old (setStatus_other hcc)
  | reserveMax N hidle => exact old rfl

/-- A call that is not part of a comparison gets ahead. -/
structure Goes (S S' : Sys α β) (u : Nat) (c : Cid) : Prop where
  step : SysStep S S'
  cmp : S'.cmp = S.cmp
  other : ∀ u' c', ¬ (u' = u ∧ c' = c) → (S'.vec u').calls c' = (S.vec u').calls c'
  less : Less ((S'.vec u).rest c) ((S.vec u).rest c)
  called : ∀ u c op, (S'.vec u).Called c op → (S.vec u).Called c op
  maxCap : ∀ u, (S'.vec u).w.mem.maxCap = (S.vec u).w.mem.maxCap
  vecStep : VecStep S S'
  made : ∀ u c, (S.vec u).calls c = none → (S'.vec u).calls c = none

theorem Goes.of {S : Sys α β} {u : Nat} {c : Cid} (hf : S.Foreign u c) {r r' : Rec α β} {κ' : Cfg α β} {p : Prog α (Ret α β)}
    (hcl : (S.vec u).calls c = some r) (hrp : r.status = .running p) (hop : r'.op = r.op) (hs : Step (S.vec u) κ')
    (hcalls : κ'.calls = upd (S.vec u).calls c (some r')) (hmc : κ'.w.mem.maxCap = (S.vec u).w.mem.maxCap)
    (hless : Less (κ'.rest c) (some p)) : Goes S ⟨upd S.vec u κ', S.cmp⟩ u c := by
  have hoth : ∀ u' c', ¬ (u' = u ∧ c' = c) → (upd S.vec u κ' u').calls c' = (S.vec u').calls c' := by
    intro u' c' hne
    by_cases hu : u' = u
    · subst hu
      rw [upd_same, hcalls]
      exact upd_other _ _ fun hc => hne ⟨rfl, hc⟩
    · rw [upd_other _ _ hu]
  refine ⟨.vec _ u κ' hs ?_, rfl, hoth, ?_, ?_, ?_, ?_, ?_⟩
  · intro k T s hk hu
    rw [hcalls]
    exact upd_other _ _ (hf k T s hk hu)
  · rw [Cfg.rest_some hcl hrp]
    simp only [upd_same]
    exact hless
  · intro u' c' op' hcall
    by_cases hne : u' = u ∧ c' = c
    · obtain ⟨rfl, rfl⟩ := hne
      obtain ⟨ct, st, x, hcc⟩ := hcall
      simp only [upd_same, hcalls] at hcc
      obtain ⟨op1, ct1, st1, s1⟩ := r
      cases hcc
      simp only at hop
      subst hop
      exact ⟨_, _, _, hcl⟩
    · obtain ⟨ct, st, x, hcc⟩ := hcall
      exact ⟨ct, st, x, (hoth u' c' hne).symm.trans hcc⟩
  · intro u'
    by_cases hu : u' = u
    · subst hu; simp only [upd_same]; exact hmc
    · simp only [upd_other _ _ hu]
  · intro u'
    by_cases hu : u' = u
    · subst hu; simp only [upd_same]; exact .inr hs
    · simp only [upd_other _ _ hu]; exact .inl trivial
  · intro u' c' hn
    by_cases hne : u' = u ∧ c' = c
    · obtain ⟨rfl, rfl⟩ := hne
      rw [hcl] at hn; cases hn
    · exact (hoth u' c' hne).trans hn

theorem SysInv.goes {S : Sys α β} (hI : SysInv m l S) (hm : ∀ u, InitMem (m u) (l u)) {u : Nat} {c : Cid} {op : Op α β}
    (hr : (S.vec u).Running c op) (hf : S.Foreign u c) (hb : ¬ (S.vec u).Blocked c) : ∃ S', Goes S S' u c := by
  have hI' : ∀ u, CfgInv (.ofList (l u)) (S.vec u) := fun u => (hI.reach u).inv (hm u)
  obtain ⟨ct, st, p, hcl⟩ := hr
  cases p with
  | ret x =>
    refine ⟨_, Goes.of hf (r' := ⟨op, ct, st, .done x (S.vec u).clock (S.vec u).w⟩) hcl rfl rfl (.ret _ _ _ _ hcl rfl) rfl rfl ?_⟩
    rw [Cfg.rest_none]
    · trivial
    · rintro op' ⟨_, _, _, hcc⟩
      have := setStatus_self.symm.trans hcc
      cases this
  | panic x =>
    refine ⟨_, Goes.of hf (r' := ⟨op, ct, st, .panicked x (S.vec u).clock (S.vec u).w⟩) hcl rfl rfl (.panic _ _ _ _ hcl rfl) rfl rfl ?_⟩
    rw [Cfg.rest_none]
    · trivial
    · rintro op' ⟨_, _, _, hcc⟩
      have := setStatus_self.symm.trans hcc
      cases this
  | step a again g =>
    obtain ⟨w', b, he, hab⟩ := (hI' u).step_of_not_blocked hcl rfl hb
    refine ⟨_, Goes.of hf (r' := ⟨op, ct, st, .running (if again b then .step a again g else g b)⟩) hcl rfl rfl
      (.act _ _ _ _ _ _ _ _ hcl rfl he) rfl ((hI' u).exec_maxCap hcl rfl he) ?_⟩
    rw [Cfg.rest_some (r := ⟨op, ct, st, .running (if again b then .step a again g else g b)⟩) (p := g b)]
    · exact ⟨a, again, g, b, rfl, rfl⟩
    · exact setStatus_self
    · simp [hab]

theorem Sys.Runs.trans {S S' S'' : Sys α β} (h : S.Runs S') (h' : S'.Runs S'') : S.Runs S'' := by
  induction h' with
  | refl => exact h
  | step _ hm ih => exact .step ih hm

theorem SysExec.extend (h : SysExec m l n S) {S' : Sys α β} (hs : SysStep (S n) S') : SysExec m l (n + 1) (upd S (n + 1) S') where
  init := by rw [upd_other _ _ (by omega)]; exact h.init
  next t ht := by
    by_cases htn : t = n
    · subst htn
      rw [upd_same, upd_other _ _ (by omega)]
      exact hs
    · rw [upd_other _ _ (by omega), upd_other _ _ (by omega)]
      exact h.next t (by omega)

/-- What is left to do decreases. -/
theorem Ahead.left_less {S S' : Sys α β} {s : Side} (hI : SysInv m l S) (hm : ∀ u, InitMem (m u) (l u)) (hA : Ahead S S' k T s T') :
    PartLess (S'.left k) (S.left k) ∧ ∀ d, d ≠ k → S'.left d = S.left d := by
  refine ⟨?_, fun d hd => ?_⟩
  · unfold Sys.left
    rw [hA.callPart hI hm]
    exact .snd (hA.cmpPart_less hI)
  · unfold Sys.left
    rw [hA.callPart hI hm, hA.cmpPart_other hI hd]

theorem Goes.left_less {S S' : Sys α β} {u : Nat} {c : Cid} (hG : Goes S S' u c) (hfo : S.Foreign u c) :
    PartLess (S'.left (Nat.pair u c)) (S.left (Nat.pair u c)) ∧ ∀ d, d ≠ Nat.pair u c → S'.left d = S.left d := by
  have hfor : ∀ u c, S'.Foreign u c ↔ S.Foreign u c := fun u c => by unfold Sys.Foreign; rw [hG.cmp]
  have hcp : ∀ k, S'.cmpPart k = S.cmpPart k := by
    intro k
    rcases hk : S.cmp k with _ | T
    · unfold Sys.cmpPart; rw [hG.cmp, hk]
    · rw [Sys.cmpPart_some hk, Sys.cmpPart_some (by rw [hG.cmp]; exact hk),
        Cfg.rest_eq (hG.other _ _ fun hh => hfo k T .left hk hh.1 hh.2),
        Cfg.rest_eq (hG.other _ _ fun hh => hfo k T .right hk hh.1 hh.2)]
  refine ⟨?_, fun d hd => ?_⟩
  · unfold Sys.left
    rw [hcp]
    refine .fst ?_
    unfold Sys.callPart
    rw [Nat.unpair_pair]
    dsimp only
    rw [if_pos hfo, if_pos ((hfor u c).2 hfo)]
    exact hG.less
  · unfold Sys.left
    rw [hcp]
    congr 1
    unfold Sys.callPart
    rw [Cfg.rest_eq (hG.other _ _ fun hh => hd (by rw [← hh.1, ← hh.2, Nat.pair_unpair]))]
    by_cases hf' : S.Foreign d.unpair.1 d.unpair.2
    · rw [if_pos hf', if_pos ((hfor _ _).2 hf')]
    · rw [if_neg hf', if_neg fun hf2 => hf' ((hfor _ _).1 hf2)]

/-- The order in which handles are asked for. -/
structure Fit (rank : Nat → Nat) (S : Sys α β) : Prop where
  sw : ∀ u c op, (S.vec u).Called c op → op.SwapsUp
  up : ∀ k T, S.cmp k = some T → S.Comparing k → T.Upwards rank

theorem Ahead.fit {S S' : Sys α β} {s : Side} {rank : Nat → Nat} (hA : Ahead S S' k T s T') (hc : S.Comparing k) (h : Fit rank S) :
    Fit rank S' := by
  refine ⟨fun u c op hc => ?_, fun k1 T1 h1 h2 => ?_⟩
  · rcases hA.called u c op hc with h3 | rfl | ⟨e, rfl⟩
    · exact h.sw u c op h3
    · trivial
    · trivial
  · by_cases hkk : k1 = k
    · subst hkk
      rw [hA.acts.cmp', upd_same] at h1
      cases h1
      have := h.up k1 T hA.acts.cmp hc
      unfold Cmp.Upwards at this ⊢
      rw [hA.acts.keeps.u, hA.acts.keeps.v, hA.acts.keeps.p, hA.acts.keeps.q]
      exact this
    · have h3 : S'.cmp k1 = S.cmp k1 := by rw [hA.acts.cmp', upd_other _ _ hkk]
      rw [h3] at h1
      refine h.up k1 T1 h1 ?_
      obtain ⟨T2, g1, g2⟩ := h2
      exact ⟨T2, h3 ▸ g1, g2⟩

theorem Fit.same {S S' : Sys α β} {rank : Nat → Nat} (h : Fit rank S) (h1 : S'.cmp = S.cmp)
    (h2 : ∀ u c op, (S'.vec u).Called c op → (S.vec u).Called c op) : Fit rank S' := by
  refine ⟨fun u c op hc => h.sw u c op (h2 u c op hc), fun k T g1 g2 => ?_⟩
  rw [h1] at g1
  refine h.up k T g1 ?_
  obtain ⟨T2, g3, g4⟩ := g2
  exact ⟨T2, h1 ▸ g3, g4⟩

/-- All work can be finished. -/
theorem SysExec.completes (hm : ∀ u, InitMem (m u) (l u)) (rank : Nat → Nat) : ∀ {n : Nat} {S : Nat → Sys α β}, SysExec m l n S →
    (∀ u c op, ((S n).vec u).Called c op → op.SwapsUp) → (∀ k T, (S n).cmp k = some T → (S n).Comparing k → T.Upwards rank) →
    (∀ u, ((S n).vec u).GrowthIntact) → (S n).SafeClosures → ∃ S', (S n).Runs S' ∧ S'.Idle := by
  have main : ∀ (N : Nat) (f : Nat → Option (Prog α (Ret α β)) × Job α β) (n : Nat) (S : Nat → Sys α β), SysExec m l n S →
      (S n).left = f → (∀ i, N ≤ i → f i = nothing) →
      (∀ u c op, ((S n).vec u).Called c op → op.SwapsUp) → (∀ k T, (S n).cmp k = some T → (S n).Comparing k → T.Upwards rank) →
      (∀ u, ((S n).vec u).GrowthIntact) → (S n).SafeClosures → ∃ S', (S n).Runs S' ∧ S'.Idle := by
    intro N f
    induction f using (Weak.oneLess_wf nothing partLess_wf N).induction with
    | _ f ih =>
      intro n S h hf hN hsw hup hg hsc
      have hI := (h.ok hm (Nat.le_refl n)).toSysInv
      have hI' : ∀ u, CfgInv (.ofList (l u)) ((S n).vec u) := fun u => (hI.reach u).inv (hm u)
      by_cases hidle : (S n).Idle
      · exact ⟨_, .refl, hidle⟩
      have hb : (∃ k, (S n).Comparing k) ∨ ∃ u c op, ((S n).vec u).Running c op := by
        refine Classical.byContradiction fun hno => hidle ⟨fun k hk => hno (.inl ⟨k, hk⟩), fun u c op ct st p hc => ?_⟩
        exact hno (.inr ⟨u, c, op, ct, st, p, hc⟩)
      -- the rest of the work
      have next : ∀ {S' : Sys α β}, (S n).Works S' → Weak.OneLess PartLess N S'.left f →
          (∀ u c op, (S'.vec u).Called c op → ((S n).vec u).Called c op ∨ op = .iter ∨ ∃ e, op = .elCloned e) →
          (∀ k T, S'.cmp k = some T → S'.Comparing k → T.Upwards rank) → VecStep (S n) S' →
          (∀ u, (S'.vec u).w.mem.maxCap = ((S n).vec u).w.mem.maxCap) → ∃ S', (S n).Runs S' ∧ S'.Idle := by
        intro S' hw hless hcalled hup' hvs hmc
        have hS' : (upd S (n + 1) S') (n + 1) = S' := upd_same _ _ _
        have hrest : ∃ S2, (upd S (n + 1) S' (n + 1)).Runs S2 ∧ S2.Idle := by
          refine ih _ hless (n + 1) (upd S (n + 1) S') (h.extend hw.1) (by rw [hS']) ?_ ?_ ?_ ?_ ?_
          · intro i hi
            obtain ⟨j, hj, -, h3⟩ := hless
            rw [h3 i (by omega)]
            exact hN i hi
          · rw [hS']
            intro u c op hc
            rcases hcalled u c op hc with h3 | rfl | ⟨e, rfl⟩
            · exact hsw u c op h3
            · trivial
            · trivial
          · rw [hS']; exact hup'
          · rw [hS']
            intro u
            rcases hvs u with h3 | h3
            · rw [h3]; exact hg u
            · exact (hI' u).intact_step h3 (hmc u) (fun c f => hsc u c f) (hg u)
          · rw [hS']
            intro u c g hc
            rcases hcalled u c _ hc with h3 | h3 | ⟨e, h3⟩
            · exact hsc u c g h3
            · cases h3
            · cases h3
        rw [hS'] at hrest
        obtain ⟨S'', h1, h2⟩ := hrest
        exact ⟨S'', (Sys.Runs.step .refl hw).trans h1, h2⟩
      rcases h.moving hm hsw rank hup hg hb with ⟨k, hk, hw⟩ | ⟨u, c, op, hr, hfo, hbl⟩
      · have hcmp := hk
        obtain ⟨T, hT, -⟩ := hk
        obtain ⟨S', s, T', hA⟩ := h.ahead hm hT hcmp hw
        have hk' : S'.cmp k = some T' := by rw [hA.acts.cmp', upd_same]
        obtain ⟨hlk, hlo⟩ := hA.left_less hI hm
        refine next ⟨hA.step, fun k1 hk1 => ?_, fun u c h1 h2 hfo => ?_⟩ ⟨k, ?_, ?_, fun d hd => ?_⟩ hA.called ?_ hA.acts.vecStep hA.maxCap
        · have : k1 ≠ k := by rintro rfl; rw [hT] at hk1; cases hk1
          rw [hA.acts.cmp', upd_other _ _ this]; exact hk1
        · by_cases hme : u = T.vecOf s ∧ c = T'.cid s
          · obtain ⟨rfl, rfl⟩ := hme
            exact hfo k T' s hk' (hA.acts.keeps.vecOf s) rfl
          · rw [hA.vec_other hme] at h2
            exact h2 h1
        · refine Nat.lt_of_not_le fun hle => ?_
          rw [hf, hN k hle] at hlk
          exact partLess_nothing hlk
        · rw [← hf]; exact hlk
        · rw [← hf]; exact hlo d hd
        · exact (hA.fit (rank := rank) hcmp ⟨hsw, hup⟩).up
      · obtain ⟨S', hG⟩ := hI.goes hm hr hfo hbl
        obtain ⟨hlk, hlo⟩ := hG.left_less hfo
        refine next ⟨hG.step, fun k1 hk1 => ?_, fun u c h1 h2 => (h2 (hG.made u c h1)).elim⟩ ⟨Nat.pair u c, ?_, ?_, fun d hd => ?_⟩
          (fun u c op hc => .inl (hG.called u c op hc)) ?_ hG.vecStep hG.maxCap
        · rw [hG.cmp]; exact hk1
        · refine Nat.lt_of_not_le fun hle => ?_
          rw [hf, hN _ hle] at hlk
          exact partLess_nothing hlk
        · rw [← hf]; exact hlk
        · rw [← hf]; exact hlo d hd
        · exact (Fit.same (rank := rank) ⟨hsw, hup⟩ hG.cmp hG.called).up
  intro n S h hsw hup hg hsc
  obtain ⟨N, hN⟩ := h.bound (Nat.le_refl n)
  exact main N _ n S h rfl (fun i hi => Sys.left_nothing (hN i hi).1 (hN i hi).2) hsw hup hg hsc

end Verif
