import Verif.Weak.Machine
import Verif.Weak.SpecMachine
import Verif.Weak.WrapProof
import Verif.Weak.CompareElem
import Verif.Proof.MachineExec

/-! # Machine arithmetic under weak memory: helper lemmas -/

namespace Verif.Weak

variable {α β : Type} {W : Nat} {m : Mem α} {l : List α} {κ κ' κ₁ κ₁' : Cfg α β}

/-- Records of a call with machine arithmetic and of the call with unbounded numbers. -/
inductive RecLike (W : Nat) : Option (Rec α β) → Option (Rec α β) → Prop where
  | none : RecLike W none none
  | running (op : Op α β) (H : List Cid) (U V : View) (p q : Prog α (Ret α β)) (h : Same W (fun _ => True) q p) :
      RecLike W (some ⟨op, H, U, V, .running p⟩) (some ⟨op, H, U, V, .running q⟩)
  | done (op : Op α β) (H : List Cid) (U V : View) (x : Ret α β) :
      RecLike W (some ⟨op, H, U, V, .done x⟩) (some ⟨op, H, U, V, .done x⟩)
  | panicked (op : Op α β) (H : List Cid) (U V : View) (k : PanicKind) :
      RecLike W (some ⟨op, H, U, V, .panicked k⟩) (some ⟨op, H, U, V, .panicked k⟩)

/-- Configurations that only differ in the programs which are still to be run. -/
structure Alike (W : Nat) (κ κ' : Cfg α β) : Prop where
  mem : κ.mem = κ'.mem
  bad : κ.bad = κ'.bad
  next : κ.next = κ'.next
  calls : ∀ c, RecLike W (κ.calls c) (κ'.calls c)

theorem RecLike.op {r r' : Option (Rec α β)} (h : RecLike W r r') : r.map Rec.op = r'.map Rec.op := by cases h <;> rfl

theorem RecLike.outline {r r' : Option (Rec α β)} (h : RecLike W r r') : r.map Rec.outline = r'.map Rec.outline := by cases h <;> rfl

theorem Alike.looksLike (h : Alike W κ κ') : κ.LooksLike κ' := ⟨h.mem, h.bad, h.next, fun c => (h.calls c).outline⟩

theorem requested_congr (hn : κ.next = κ'.next) (h : ∀ c, (κ.calls c).map Rec.op = (κ'.calls c).map Rec.op) : κ.requested = κ'.requested := by
  unfold Cfg.requested
  rw [hn]
  refine congrArg List.sum (List.map_congr_left fun c _ => ?_)
  have := h c
  rcases h1 : κ.calls c with _ | r <;> rcases h2 : κ'.calls c with _ | r' <;> rw [h1, h2] at this
  · cases this
  · cases this
  · injection this with this
    simp only [Option.bind_some, this]

theorem Alike.requested (h : Alike W κ κ') : κ.requested = κ'.requested := requested_congr h.next fun c => (h.calls c).op

theorem called_congr (h : ∀ c, (κ.calls c).map Rec.op = (κ'.calls c).map Rec.op) {c : Cid} {op : Op α β} (hc : κ.Called c op) : κ'.Called c op := by
  obtain ⟨r, hr, ho⟩ := hc
  have := h c
  rw [hr] at this
  rcases hr' : κ'.calls c with _ | r' <;> rw [hr'] at this
  · cases this
  · injection this with this
    exact ⟨r', hr', by rw [← this, ho]⟩

theorem disciplined_congr (h : ∀ c, (κ.calls c).map Rec.op = (κ'.calls c).map Rec.op) (hd : κ.Disciplined) : κ'.Disciplined :=
  fun c e hc d op hdc => hd c e (called_congr (fun c => (h c).symm) hc) d op (called_congr (fun c => (h c).symm) hdc)

theorem RecLike.done_inv {r : Rec α β} {x : Ret α β} {r' : Option (Rec α β)} (h : RecLike W (some r) r') (hx : r.status = .done x) :
    r' = some r := by
  cases h with
  | running => cases hx
  | done => rfl
  | panicked => cases hx

theorem RecLike.panicked_inv {r : Rec α β} {k : PanicKind} {r' : Option (Rec α β)} (h : RecLike W (some r) r') (hx : r.status = .panicked k) :
    r' = some r := by
  cases h with
  | running => cases hx
  | done => cases hx
  | panicked => rfl

theorem RecLike.running_inv {r : Rec α β} {r' : Option (Rec α β)} {p : Prog α (Ret α β)} (h : RecLike W (some r) r') (hp : r.status = .running p) :
    ∃ q, r' = some { r with status := .running q } ∧ Same W (fun _ => True) q p := by
  cases h with
  | running op H U V p' q h => cases hp; exact ⟨q, rfl, h⟩
  | done => cases hp
  | panicked => cases hp

theorem Alike.revealed (h : Alike W κ κ') {H : List Cid} {i : Nat} (hr : κ.Revealed H i) : κ'.Revealed H i := by
  obtain ⟨c, hc, r, x, h1, h2, h3⟩ := hr
  have := h.calls c
  rw [h1] at this
  exact ⟨c, hc, r, x, this.done_inv h2, h2, h3⟩

theorem Alike.revealedPtr (h : Alike W κ κ') {H : List Cid} {i : Nat} (hr : κ.RevealedPtr H i) : κ'.RevealedPtr H i := by
  obtain ⟨c, hc, r, x, h1, h2, h3⟩ := hr
  have := h.calls c
  rw [h1] at this
  exact ⟨c, hc, r, x, this.done_inv h2, h2, h3⟩

theorem Alike.ended (h : Alike W κ κ') {H : List Cid} {V : View} (he : Ended κ H V) : Ended κ' H V := by
  induction he with
  | nil => exact .nil
  | @done c H V r x h1 h2 _ ih =>
    have := h.calls c
    rw [h1] at this
    exact .done (this.done_inv h2) h2 ih
  | @panicked c H V r k h1 h2 _ ih =>
    have := h.calls c
    rw [h1] at this
    exact .panicked (this.panicked_inv h2) h2 ih

theorem Alike.idle (h : Alike W κ κ') (hi : κ.Idle) : κ'.Idle := by
  rintro c op ⟨r, p, hr, ho, hp⟩
  have := h.calls c
  rw [hr] at this
  generalize hx : κ.calls c = x at this
  cases this with
  | running op' H U V p' q hs => exact hi c op ⟨_, p', hx, ho, rfl⟩
  | done => cases hp
  | panicked => cases hp

theorem Alike.upd (h : Alike W κ κ') {c : Cid} {r r' : Option (Rec α β)} (hr : RecLike W r r') :
    ∀ d, RecLike W (Verif.upd κ.calls c r d) (Verif.upd κ'.calls c r' d) := by
  intro d
  by_cases hd : d = c
  · subst hd; simpa using hr
  · rw [upd_other _ _ hd, upd_other _ _ hd]; exact h.calls d

theorem GInv.written_le {D : Mode} {M : WMem α} {K : Cid → Know} (h : GInv D M K) {r : Msg Nat} (hr : r ∈ M.written) : r.val ≤ lastVal M.res := by
  refine Nat.le_of_not_lt fun hlt => ?_
  obtain ⟨t, ht⟩ := List.mem_iff_getElem?.1 hr
  exact fresh_not_past (h.lim _ (Nat.le_refl _)).1 (h.written_msg t r ht _ hlt).1

/-- While fewer positions were requested than there are numbers, no counter and no position exceeds them. -/
theorem Reach.bounds (h : Reach m κ) (hm : InitMem m l) (hd : κ.Disciplined) (hb : l.length + κ.requested < W) :
    (∀ r ∈ κ.mem.res, r.val < W) ∧ (∀ r ∈ κ.mem.written, r.val < W) ∧ ∀ c r x i, κ.calls c = some r → r.status = .done x → i ∈ x.elements →
      i + 1 < W := by
  obtain ⟨K, K0, S, t, hW, hT⟩ := tinv (D := ⟨fun e => ∃ c, κ.Called c (.deref e), False, fun _ _ => True⟩) hm h fun c op hc =>
    ⟨fun i ⟨c', hc'⟩ => hd c' i hc' c op hc, fun _ he => ⟨c, he ▸ hc⟩, fun h => h.elim, fun _ _ _ => trivial⟩
  have hl := hT.reserved_le h.new
  refine ⟨fun r hr => ?_, fun r hr => ?_, fun c r x i hc hx hi => ?_⟩
  · obtain ⟨t, ht⟩ := List.mem_iff_getElem?.1 hr
    have := hW.g.res_mono.last ht
    omega
  · have := hW.g.written_le hr
    omega
  · have hV := ((hW.done ⟨r, hc, rfl, hx⟩).el i hi).1
    have : i < lastVal κ.mem.res := Nat.lt_of_not_le fun hge => fresh_not_past (hW.g.lim i hge).1 ((hW.k c).v i hV)
    omega

theorem small_of {a : Act α} {t : Nat} {V V' : View} {M M' : WMem α} {b : a.Resp} (he : exec a t V M = .ok V' M' b)
    (h1 : ∀ r ∈ M.res, r.val < W) (h2 : ∀ r ∈ M.written, r.val < W) (h3 : ∀ r ∈ M'.res, r.val < W) : a.Small W b := by
  cases a with
  | resFetchAdd n o =>
    simp only [exec] at he
    split at he <;> cases he
    exact h3 _ (List.mem_append_right _ (List.mem_singleton.2 rfl))
  | resLoad o =>
    simp only [exec] at he
    split at he
    · next r hr =>
      split at he <;> cases he
      exact h1 r (List.mem_of_getElem? hr)
    · cases he
  | writtenLoad o =>
    simp only [exec] at he
    split at he
    · next r hr =>
      split at he <;> cases he
      exact h2 r (List.mem_of_getElem? hr)
    · cases he
  | _ => trivial

theorem upd_ops {c : Cid} {r q : Rec α β} (hc : κ.calls c = some r) (ho : q.op = r.op) (d : Cid) :
    (upd κ.calls c (some q) d).map Rec.op = (κ.calls d).map Rec.op := by
  by_cases hd : d = c
  · subst hd; simp [hc, ho]
  · simp [hd]

/-- One step with machine arithmetic is one step with unbounded numbers. -/
theorem StepM.sim {A : Arith W} (hs : StepM A κ κ₁) (h : Alike W κ κ') (hR : Reach m κ') (hm : InitMem m l) (hd0 : κ.Disciplined)
    (hd : κ₁.Disciplined) (hb : l.length + κ₁.requested < W) (hb0 : l.length + κ.requested < W) : ∃ κ₁', Step κ' κ₁' ∧ Alike W κ₁ κ₁' := by
  have hd' : κ'.Disciplined := disciplined_congr (fun c => (h.calls c).op) hd0
  obtain ⟨B1, B2, B3⟩ := hR.bounds hm hd' (h.requested ▸ hb0)
  cases hs with
  | call op H V hH hn hp hu =>
    refine ⟨_, .call κ' op H V (h.ended hH) (fun i hi => h.revealed (hn i hi)) (fun i hi => h.revealedPtr (hp i hi)), ?_⟩
    have hok : ∀ s, op.slc? = some s → Machine.Ok W s := by
      intro s hs
      by_cases h0 : s.len = 0
      · have := hu s hs
        unfold Machine.Ok
        omega
      · have hmem : s.a + s.len - 1 ∈ op.needs := by
          rw [slc_needs hs, List.mem_range'_1]; omega
        obtain ⟨c, -, r, x, h1, h2, h3⟩ := h.revealed (hn _ hmem)
        have := B3 c r x _ h1 h2 h3
        unfold Machine.Ok
        omega
    refine ⟨h.mem, h.bad, by simp only [h.next], ?_⟩
    show ∀ c, RecLike W (Verif.upd κ.calls κ.next _ c) (Verif.upd κ'.calls κ'.next _ c)
    rw [← h.next]
    exact h.upd (.running op _ _ _ _ _ (prog_same A op hok))
  | other κ₂ hs hn =>
    have hb2 : l.length + κ₂.requested < W := hb
    have hd2 : κ₂.Disciplined := hd
    have key : ∀ κ₁', Step κ' κ₁' → Alike W κ₂ κ₁' → Alike W (κ₂.wrap W) κ₁' := by
      intro κ₁' h1 h2
      rw [Cfg.wrap_eq]
      · exact h2
      · rw [h2.mem]
        exact (Reach.bounds (.step hR h1) hm (disciplined_congr (fun c => (h2.calls c).op) hd2) (h2.requested ▸ hb2)).1
    clear hb hd
    cases hs with
    | call op _ _ => exact absurd hn (by simp)
    | act c r a again k t V μ b hc hr he =>
      have hcl := h.calls c
      rw [hc] at hcl
      obtain ⟨q, hq, hsame⟩ := hcl.running_inv hr
      generalize hp : Prog.step a again k = p at hsame
      cases hsame with
      | ret => cases hp
      | panic => cases hp
      | step a again kq k' hk =>
        cases hp
        have he' : exec a t r.view κ'.mem = .ok V μ b := h.mem ▸ he
        have hst : Step κ' _ := .act κ' c _ a again kq t V μ b hq rfl he'
        have hops := upd_ops (κ := κ') (q := { r with view := V, status := .running (if again b then .step a again kq else kq b) }) hq rfl
        have hsm : a.Small W b := by
          refine small_of he' B1 B2 ?_
          refine (Reach.bounds (.step hR hst) hm (disciplined_congr (fun c => (hops c).symm) hd') ?_).1
          rw [h.requested] at hb0
          refine Nat.lt_of_le_of_lt (Nat.le_of_eq ?_) hb0
          exact congrArg _ (requested_congr rfl hops)
        refine ⟨_, hst, key _ hst ⟨rfl, h.bad, h.next, ?_⟩⟩
        refine h.upd ?_
        refine .running r.op r.hb r.start V _ _ ?_
        split
        · exact .step a again kq k hk
        · exact hk b hsm
    | bad c r a again k t x hc hr he =>
      have hcl := h.calls c
      rw [hc] at hcl
      obtain ⟨q, hq, hsame⟩ := hcl.running_inv hr
      generalize hp : Prog.step a again k = p at hsame
      cases hsame with
      | ret => cases hp
      | panic => cases hp
      | step a again kq k' hk =>
        cases hp
        have hst : Step κ' _ := .bad κ' c _ a again kq t x hq rfl (h.mem ▸ he)
        exact ⟨_, hst, key _ hst ⟨h.mem, rfl, h.next, h.calls⟩⟩
    | ret c r x hc hr =>
      have hcl := h.calls c
      rw [hc] at hcl
      obtain ⟨q, hq, hsame⟩ := hcl.running_inv hr
      generalize hp : Prog.ret x = p at hsame
      cases hsame with
      | panic => cases hp
      | step => cases hp
      | ret x' =>
        cases hp
        have hst : Step κ' _ := .ret κ' c _ x hq rfl
        exact ⟨_, hst, key _ hst ⟨h.mem, h.bad, h.next, h.upd (.done _ _ _ _ _)⟩⟩
    | panic c r pk hc hr =>
      have hcl := h.calls c
      rw [hc] at hcl
      obtain ⟨q, hq, hsame⟩ := hcl.running_inv hr
      generalize hp : Prog.panic pk = p at hsame
      cases hsame with
      | ret => cases hp
      | step => cases hp
      | panic pk' =>
        cases hp
        have hst : Step κ' _ := .panic κ' c _ pk hq rfl
        exact ⟨_, hst, key _ hst ⟨h.mem, h.bad, h.next, h.upd (.panicked _ _ _ _ _)⟩⟩
    | reserveMax n hi =>
      have hst : Step κ' _ := .reserveMax κ' n (h.idle hi)
      exact ⟨_, hst, key _ hst ⟨by simp only [h.mem], h.bad, h.next, h.calls⟩⟩

theorem StepM.requested_mono {A : Arith W} (hs : StepM A κ κ₁) : κ.requested ≤ κ₁.requested := by
  cases hs with
  | call op H V hH hn hp hu =>
    have := Weak.requested_mono (.call κ op H V hH hn hp)
    refine Nat.le_trans this (Nat.le_of_eq (requested_congr rfl fun c => ?_))
    by_cases hc : c = κ.next
    · subst hc; simp
    · simp [hc]
  | other κ₂ hs hn =>
    have := Weak.requested_mono hs
    exact this

theorem ReachM.new {A : Arith W} (h : ReachM A m κ) : ∀ d, κ.next ≤ d → κ.calls d = none := by
  induction h with
  | init => intro d _; rfl
  | @step κ κ' h hs ih =>
    cases hs with
    | call op H V hH hn hp hu =>
      intro d hd
      have hd : κ.next + 1 ≤ d := hd
      show upd κ.calls κ.next _ d = _
      rw [upd_apply, if_neg (Nat.ne_of_gt hd)]; exact ih d (Nat.le_of_succ_le hd)
    | other κ₂ hs hn => intro d hd; exact Step.keeps_new hs ih d hd

theorem StepM.called {A : Arith W} (hs : StepM A κ κ₁) (hn : ∀ d, κ.next ≤ d → κ.calls d = none) {c : Cid} {op : Op α β} (h : κ.Called c op) :
    κ₁.Called c op := by
  cases hs with
  | call op' H V hH hn' hp hu =>
    obtain ⟨r, hr, ho⟩ := h
    refine ⟨r, ?_, ho⟩
    show upd κ.calls κ.next _ c = _
    rw [upd_apply, if_neg]
    · exact hr
    · intro e; rw [e, hn _ (Nat.le_refl _)] at hr; cases hr
  | other κ₂ hs hne => exact hs.called hn h

theorem ReachM.sim {A : Arith W} (h : ReachM A m κ) (hm : InitMem m l) (hd : κ.Disciplined) (hb : l.length + κ.requested < W) :
    ∃ κ', Reach m κ' ∧ Alike W κ κ' := by
  induction h with
  | init => exact ⟨_, .init, rfl, rfl, rfl, fun c => .none⟩
  | @step κ κ₁ h hs ih =>
    have hq := hs.requested_mono
    have hd0 : κ.Disciplined := fun c e hc d op hdc => hd c e (hs.called h.new hc) d op (hs.called h.new hdc)
    obtain ⟨κ', hR, ha⟩ := ih hd0 (by omega)
    obtain ⟨κ₁', h1, h2⟩ := hs.sim ha hR hm hd0 hd hb (by omega)
    exact ⟨κ₁', .step hR h1, h2⟩

end Verif.Weak
