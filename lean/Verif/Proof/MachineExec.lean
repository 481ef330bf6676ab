import Verif.Proof.Machine

/-! # Executions with machine arithmetic: helper lemmas -/

namespace Verif

variable {α β : Type} {W : Nat} {m : Mem α} {l : List α} {κ κ' κ₁ κ₁' : Cfg α β}

/-- Records of a call with machine arithmetic and of the call with unbounded numbers. -/
inductive RecLike (W : Nat) : Option (Rec α β) → Option (Rec α β) → Prop where
  | none : RecLike W none none
  | running (op : Op α β) (ct : Nat) (st : World α) (p q : Prog α (Ret α β)) (h : Same W (fun _ => True) q p) :
      RecLike W (some ⟨op, ct, st, .running p⟩) (some ⟨op, ct, st, .running q⟩)
  | done (op : Op α β) (ct : Nat) (st : World α) (x : Ret α β) (et : Nat) (fin : World α) :
      RecLike W (some ⟨op, ct, st, .done x et fin⟩) (some ⟨op, ct, st, .done x et fin⟩)
  | panicked (op : Op α β) (ct : Nat) (st : World α) (k : PanicKind) (et : Nat) (fin : World α) :
      RecLike W (some ⟨op, ct, st, .panicked k et fin⟩) (some ⟨op, ct, st, .panicked k et fin⟩)

/-- Configurations that only differ in the programs which are still to be run. -/
structure Alike (W : Nat) (κ κ' : Cfg α β) : Prop where
  w : κ.w = κ'.w
  ub : κ.ub = κ'.ub
  clock : κ.clock = κ'.clock
  next : κ.next = κ'.next
  calls : ∀ c, RecLike W (κ.calls c) (κ'.calls c)

theorem RecLike.op {r r' : Option (Rec α β)} (h : RecLike W r r') : r.map Rec.op = r'.map Rec.op := by cases h <;> rfl

theorem RecLike.outline {r r' : Option (Rec α β)} (h : RecLike W r r') : r.map Rec.outline = r'.map Rec.outline := by cases h <;> rfl

theorem Alike.looksLike (h : Alike W κ κ') : κ.LooksLike κ' := ⟨h.w, h.ub, h.clock, h.next, fun c => (h.calls c).outline⟩

theorem requested_congr (hn : κ.next = κ'.next) (h : ∀ c, (κ.calls c).map Rec.op = (κ'.calls c).map Rec.op) : κ.requested = κ'.requested := by
  unfold Cfg.requested
  rw [hn]
  refine congrArg List.sum (List.map_congr_left fun c _ => ?_)
  have := h c
  rcases h1 : κ.calls c with _ | r <;> rcases h2 : κ'.calls c with _ | r' <;> rw [h1, h2] at this
  · cases this
  · cases this
  · injection this with this
    simp only [Option.bind_some, this]

theorem Alike.requested (h : Alike W κ κ') : κ.requested = κ'.requested := requested_congr h.next fun c => (h.calls c).op

theorem setStatus_ops {c : Cid} {r : Rec α β} {s : Status α β} (hc : κ.calls c = some r) (d : Cid) :
    (κ.setStatus c r s d).map Rec.op = (κ.calls d).map Rec.op := by
  by_cases hd : d = c
  · subst hd; simp [Cfg.setStatus, hc]
  · simp [Cfg.setStatus, hd]

theorem RecLike.done_inv {op : Op α β} {ct et : Nat} {st fin : World α} {x : Ret α β} {r' : Option (Rec α β)}
    (h : RecLike W (some ⟨op, ct, st, .done x et fin⟩) r') : r' = some ⟨op, ct, st, .done x et fin⟩ := by cases h; rfl

theorem Alike.revealed (h : Alike W κ κ') {i : Nat} (hr : κ.Revealed i) : κ'.Revealed i := by
  obtain ⟨c, x, op, ct, st, et, fin, hc, hi⟩ := hr
  have := h.calls c
  rw [hc] at this
  exact ⟨c, x, op, ct, st, et, fin, this.done_inv, hi⟩

theorem Alike.revealedPtr (h : Alike W κ κ') {i : Nat} (hr : κ.RevealedPtr i) : κ'.RevealedPtr i := by
  obtain ⟨c, x, op, ct, st, et, fin, hc, hi⟩ := hr
  have := h.calls c
  rw [hc] at this
  exact ⟨c, x, op, ct, st, et, fin, this.done_inv, hi⟩

theorem Alike.idle (h : Alike W κ κ') (hi : κ.Idle) : κ'.Idle := by
  intro c op ct st p hc
  have := h.calls c
  rw [hc] at this
  generalize hx : κ.calls c = x at this
  cases this
  exact hi _ _ _ _ _ hx

theorem Alike.upd (h : Alike W κ κ') {c : Cid} {r r' : Option (Rec α β)} (hr : RecLike W r r') :
    ∀ d, RecLike W (Verif.upd κ.calls c r d) (Verif.upd κ'.calls c r' d) := by
  intro d
  by_cases hd : d = c
  · subst hd; simpa using hr
  · rw [upd_other _ _ hd, upd_other _ _ hd]; exact h.calls d

theorem RecLike.running_inv {r : Rec α β} {r' : Option (Rec α β)} {p : Prog α (Ret α β)} (h : RecLike W (some r) r') (hp : r.status = .running p) :
    ∃ q, r' = some { r with status := .running q } ∧ Same W (fun _ => True) q p := by
  cases h with
  | running op ct st p' q h => cases hp; exact ⟨q, rfl, h⟩
  | done => cases hp
  | panicked => cases hp

theorem CfgInv.written_le {σ₀ : SpecSt α} (h : CfgInv σ₀ κ) : κ.w.mem.written ≤ κ.w.mem.reserved := by
  rw [h.inv.len_eq]
  rcases Nat.lt_or_ge κ.w.spec.len κ.w.mem.written with hlt | hge
  · exact absurd (h.inv.pub_len _ (h.inv.written _ hlt)) (Nat.lt_irrefl _)
  · exact hge

theorem small_of {σ₀ : SpecSt α} (h : CfgInv σ₀ κ) {c : Cid} {a : Act α} {w' : World α} {b : a.Resp} (he : κ.w.exec c a = some (w', b))
    (h0 : κ.w.mem.reserved < W) (h1 : w'.mem.reserved < W) : a.Small W b := by
  have hw := h.written_le
  unfold World.exec at he
  cases a with
  | resFetchAdd n o => simp only [Act.exec] at he; cases he; exact h1
  | resLoad o => simp only [Act.exec] at he; cases he; exact h0
  | writtenLoad o => simp only [Act.exec] at he; cases he; exact Nat.lt_of_le_of_lt hw h0
  | _ => trivial

theorem wrap_eq (h : κ.w.mem.reserved < W) : κ.wrap W = κ := by
  unfold Cfg.wrap
  rw [Nat.mod_eq_of_lt h]

theorem slc_needs {op : Op α β} {s : Slc} (h : op.slc? = some s) : op.needs = positions s.a s.len := by
  cases op <;> simp only [Op.slc?] at h <;> cases h <;> rfl

/-- One step with machine arithmetic is one step with unbounded numbers. -/
theorem StepM.sim {A : Arith W} (hs : StepM A κ κ₁) (h : Alike W κ κ') (hI : CfgInv (.ofList l) κ') (hb : l.length + κ₁.requested < W)
    (hb0 : l.length + κ.requested < W) : ∃ κ₁', Step κ' κ₁' ∧ Alike W κ₁ κ₁' := by
  have hres : κ'.w.mem.reserved < W := by
    have := hI.reserved_le_requested
    rw [← h.requested] at this
    omega
  cases hs with
  | invoke op hn hp hu =>
    refine ⟨_, .invoke κ' op (fun i hi => h.revealed (hn i hi)) (fun i hi => h.revealedPtr (hp i hi)), ?_⟩
    have hok : ∀ s, op.slc? = some s → Machine.Ok W s := by
      intro s hs
      by_cases h0 : s.len = 0
      · have := hu s hs
        unfold Machine.Ok
        omega
      · have hmem : s.a + s.len - 1 ∈ op.needs := by
          rw [slc_needs hs, List.mem_range'_1]; omega
        have := hI.inv.pub_len _ (hI.revealed (h.revealed (hn _ hmem)))
        rw [← hI.inv.len_eq] at this
        unfold Machine.Ok
        omega
    refine ⟨h.w, h.ub, by simp only [h.clock], by simp only [h.next], ?_⟩
    show ∀ c, RecLike W (upd κ.calls κ.next _ c) (upd κ'.calls κ'.next _ c)
    rw [← h.next, ← h.clock, ← h.w]
    exact h.upd (.running op _ _ _ _ (prog_same A op hok))
  | other κ₂ hs hn =>
    have key : ∀ κ₁', Step κ' κ₁' → Alike W κ₂ κ₁' → Alike W (κ₂.wrap W) κ₁' := by
      intro κ₁' h1 h2
      have := (hI.step h1).reserved_le_requested
      rw [← h2.requested, ← h2.w] at this
      rw [wrap_eq]
      · exact h2
      · have : κ₂.requested = (κ₂.wrap W).requested := rfl
        omega
    have hb2 : l.length + κ₂.requested < W := hb
    clear hb
    cases hs with
    | invoke op _ _ => exact absurd hn (by simp)
    | act c r a again k w' b hc hr he =>
      have hcl := h.calls c
      rw [hc] at hcl
      obtain ⟨q, hq, hsame⟩ := hcl.running_inv hr
      generalize hp : Prog.step a again k = p at hsame
      cases hsame with
      | ret => cases hp
      | panic => cases hp
      | step a again kq k' hk =>
        cases hp
        have he' : κ'.w.exec c a = some (w', b) := h.w ▸ he
        have hst : Step κ' _ := .act κ' c _ a again kq w' b hq rfl he'
        have hsm : a.Small W b := by
          refine small_of hI he' hres ?_
          have hle := (hI.step hst).reserved_le_requested
          refine Nat.lt_of_le_of_lt hle (Nat.lt_of_le_of_lt (Nat.add_le_add_left (Nat.le_of_eq ?_) _) hb0)
          rw [h.requested]
          exact requested_congr rfl (setStatus_ops hq)
        refine ⟨_, hst, key _ hst ⟨rfl, h.ub, by simp only [h.clock], h.next, ?_⟩⟩
        refine h.upd ?_
        refine .running r.op r.callT r.start _ _ ?_
        split
        · exact .step a again kq k hk
        · exact hk b hsm
    | ub c r a again k hc hr he =>
      have hcl := h.calls c
      rw [hc] at hcl
      obtain ⟨q, hq, hsame⟩ := hcl.running_inv hr
      generalize hp : Prog.step a again k = p at hsame
      cases hsame with
      | ret => cases hp
      | panic => cases hp
      | step a again kq k' hk =>
        cases hp
        have hst : Step κ' _ := .ub κ' c _ a again kq hq rfl (h.w ▸ he)
        exact ⟨_, hst, key _ hst ⟨h.w, rfl, h.clock, h.next, h.calls⟩⟩
    | ret c r x hc hr =>
      have hcl := h.calls c
      rw [hc] at hcl
      obtain ⟨q, hq, hsame⟩ := hcl.running_inv hr
      generalize hp : Prog.ret x = p at hsame
      cases hsame with
      | panic => cases hp
      | step => cases hp
      | ret x' =>
        cases hp
        have hst : Step κ' _ := .ret κ' c _ x hq rfl
        refine ⟨_, hst, key _ hst ⟨h.w, h.ub, by simp only [h.clock], h.next, h.upd ?_⟩⟩
        rw [← h.clock, ← h.w]
        exact .done _ _ _ _ _ _
    | panic c r pk hc hr =>
      have hcl := h.calls c
      rw [hc] at hcl
      obtain ⟨q, hq, hsame⟩ := hcl.running_inv hr
      generalize hp : Prog.panic pk = p at hsame
      cases hsame with
      | ret => cases hp
      | step => cases hp
      | panic pk' =>
        cases hp
        have hst : Step κ' _ := .panic κ' c _ pk hq rfl
        refine ⟨_, hst, key _ hst ⟨h.w, h.ub, by simp only [h.clock], h.next, h.upd ?_⟩⟩
        rw [← h.clock, ← h.w]
        exact .panicked _ _ _ _ _ _
    | reserveMax n hi =>
      have hst : Step κ' _ := .reserveMax κ' n (h.idle hi)
      exact ⟨_, hst, key _ hst ⟨by simp only [h.w], h.ub, by simp only [h.clock], h.next, h.calls⟩⟩

theorem StepM.requested_mono {A : Arith W} (hs : StepM A κ κ₁) : κ.requested ≤ κ₁.requested := by
  cases hs with
  | invoke op hn hp hu =>
    have := Verif.requested_mono (.invoke κ op hn hp)
    refine Nat.le_trans this (Nat.le_of_eq (requested_congr rfl fun c => ?_))
    by_cases hc : c = κ.next
    · subst hc; simp
    · simp [hc]
  | other κ₂ hs hn =>
    have := Verif.requested_mono hs
    exact this

theorem ExecM.sim {A : Arith W} {n : Nat} {κ : Nat → Cfg α β} (h : ExecM A m l n κ) (hm : InitMem m l)
    (hb : l.length + (κ n).requested < W) : ∃ κ' : Nat → Cfg α β, Exec m l n κ' ∧ ∀ t, t ≤ n → Alike W (κ t) (κ' t) := by
  induction n with
  | zero =>
    refine ⟨κ, ⟨h.init, fun t ht => absurd ht (by omega)⟩, fun t ht => ?_⟩
    have : t = 0 := by omega
    subst this
    rw [h.init]
    exact ⟨rfl, rfl, rfl, rfl, fun c => .none⟩
  | succ n ih =>
    have hs := h.next n (by omega)
    have hmono := hs.requested_mono
    obtain ⟨κ', he, ha⟩ := ih ⟨h.init, fun t ht => h.next t (by omega)⟩ (by omega)
    obtain ⟨κ₁', h1, h2⟩ := hs.sim (ha n (Nat.le_refl n)) (he.inv hm (Nat.le_refl n)) hb (by omega)
    refine ⟨fun t => if t ≤ n then κ' t else κ₁', ⟨?_, fun t ht => ?_⟩, fun t ht => ?_⟩
    · simp only [Nat.zero_le, if_true]; exact he.init
    · by_cases hlt : t < n
      · simp only [show t ≤ n by omega, show t + 1 ≤ n by omega, if_true]; exact he.next t hlt
      · have : t = n := by omega
        subst this
        simp only [Nat.le_refl, if_true, show ¬ t + 1 ≤ t by omega, if_false]
        exact h1
    · by_cases hle : t ≤ n
      · simp only [hle, if_true]; exact ha t hle
      · have : t = n + 1 := by omega
        subst this
        simp only [hle, if_false]
        exact h2

end Verif
