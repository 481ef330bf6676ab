import Verif.Spec.Progress
import Verif.Proof.GrowthLemmas
import Verif.Proof.NextLemmas

/-!
# Progress

Helper file (no property statements): a waiting call waits for a call that can proceed; calls that can proceed
eventually end.
-/

namespace Verif

variable {α β : Type}

/-- A continuation of a program is not the program itself. -/
theorem Prog.cont_ne {ρ : Type} : ∀ (p : Prog α ρ) (a : Act α) (again : a.Resp → Bool) (k : a.Resp → Prog α ρ)
    (b : a.Resp), p = .step a again k → k b ≠ p := by
  intro p
  induction p with
  | ret r => intro a again k b h; cases h
  | panic k => intro a again k b h; cases h
  | step a' again' k' ih =>
    intro a again k b h heq
    simp only [Prog.step.injEq] at h
    obtain ⟨rfl, h1, h2⟩ := h
    have h1 := eq_of_heq h1
    have h2 := eq_of_heq h2
    subst h1 h2
    exact ih b a' again' k' b heq rfl

section

variable {σ₀ : SpecSt α} {κ κ' : Cfg α β} {c : Cid}

theorem Cfg.Moves.step (h : κ.Moves c κ') : Step κ κ' := by
  obtain ⟨r, hc, ⟨a, again, k, w', b, hr, he, rfl⟩ | ⟨x, hr, rfl⟩ | ⟨k, hr, rfl⟩⟩ := h
  · exact .act κ c r a again k w' b hc hr he
  · exact .ret κ c r x hc hr
  · exact .panic κ c r k hc hr

theorem setStatus_self {r : Rec α β} {s : Status α β} : κ.setStatus c r s c = some { r with status := s } := by
  simp [Cfg.setStatus]

theorem setStatus_other {r : Rec α β} {s : Status α β} {c' : Cid} (h : c' ≠ c) :
    κ.setStatus c r s c' = κ.calls c' := by
  simp [Cfg.setStatus, h]

theorem CfgInv.step_other (h : CfgInv σ₀ κ) (hs : Step κ κ') {r : Rec α β} {p : Prog α (Ret α β)}
    (hc : κ.calls c = some r) (hr : r.status = .running p) :
    κ.Moves c κ' ∨ (κ'.calls c = some r ∧ Rely c κ.w κ'.w) := by
  cases hs with
  | invoke op hn hp =>
    refine .inr ⟨?_, .refl _ _⟩
    simp only [upd_apply]
    rw [if_neg]
    · exact hc
    · intro he
      have := (h.next c r hc).2
      rw [he] at this
      exact absurd this (Nat.lt_irrefl _)
  | act c' r' a again k w' b hc' hr' he =>
    by_cases hcc : c = c'
    · subst hcc
      exact .inl ⟨r', hc', .inl ⟨a, again, k, w', b, hr', he, rfl⟩⟩
    · refine .inr ⟨?_, ?_⟩
      · show κ.setStatus c' r' _ c = some r
        rw [setStatus_other hcc, hc]
      · obtain ⟨hsafe, -⟩ := h.running hc' hr'
        obtain ⟨hpre, -⟩ := hsafe _ h.inv (.refl _ _)
        exact (exec_inv h.inv hpre he).2 c hcc
  | ub c' r' a again k hc' hr' he => exact .inr ⟨hc, .refl _ _⟩
  | ret c' r' x hc' hr' =>
    by_cases hcc : c = c'
    · subst hcc
      exact .inl ⟨r', hc', .inr (.inl ⟨x, hr', rfl⟩)⟩
    · refine .inr ⟨?_, .refl _ _⟩
      show κ.setStatus c' r' _ c = some r
      rw [setStatus_other hcc, hc]
  | panic c' r' x hc' hr' =>
    by_cases hcc : c = c'
    · subst hcc
      exact .inl ⟨r', hc', .inr (.inr ⟨x, hr', rfl⟩)⟩
    · refine .inr ⟨?_, .refl _ _⟩
      show κ.setStatus c' r' _ c = some r
      rw [setStatus_other hcc, hc]
  | reserveMax n hidle =>
    obtain ⟨op, ct, st, s⟩ := r
    simp only at hr
    subst hr
    exact absurd hc (hidle c op ct st p)

/-- Waiting, in terms of the program. -/
theorem CfgInv.blocked_iff (h : CfgInv σ₀ κ) : κ.Blocked c ↔
    ∃ r a again k b, κ.calls c = some r ∧ r.status = .running (.step a again k) ∧
      κ.w.exec c a = some (κ.w, b) ∧ again b = true ∧ BlockOK c r.op.Nested κ.w a := by
  constructor
  · rintro ⟨⟨op, ct, st, p, hc⟩, hm⟩
    cases p with
    | ret x =>
      have : κ.setStatus c _ _ c = κ.calls c := (hm _ ⟨_, hc, .inr (.inl ⟨x, rfl, rfl⟩)⟩).1
      rw [setStatus_self, hc] at this
      simp at this
    | panic k =>
      have : κ.setStatus c _ _ c = κ.calls c := (hm _ ⟨_, hc, .inr (.inr ⟨k, rfl, rfl⟩)⟩).1
      rw [setStatus_self, hc] at this
      simp at this
    | step a again k =>
      obtain ⟨hsafe, -⟩ := h.running hc rfl
      obtain ⟨hpre, hex⟩ := hsafe _ h.inv (.refl _ _)
      have hpre' : Pre op.raw c κ.w a := hpre
      obtain ⟨w', b, he, -⟩ := exec_ok h.inv hpre'
      obtain ⟨-, hag, -⟩ := hex w' b he
      cases hb : again b with
      | true =>
        obtain ⟨rfl, hok⟩ := hag hb
        exact ⟨_, a, again, k, b, hc, rfl, he, hb, hok⟩
      | false =>
        have : κ.setStatus c _ _ c = κ.calls c := (hm _ ⟨_, hc, .inl ⟨a, again, k, w', b, rfl, he, rfl⟩⟩).1
        rw [setStatus_self, hc] at this
        simp only [hb, Bool.false_eq_true, if_false, Option.some.injEq, Rec.mk.injEq, Status.running.injEq,
          true_and] at this
        exact absurd this (Prog.cont_ne _ a again k b rfl)
  · rintro ⟨⟨op, ct, st, s⟩, a, again, k, b, hc, hr, he, hb, -⟩
    simp only at hr
    subst hr
    refine ⟨⟨op, ct, st, _, hc⟩, ?_⟩
    rintro κ' ⟨r', hc', ⟨a', again', k', w', b', hr', he', rfl⟩ | ⟨x, hr', rfl⟩ | ⟨x, hr', rfl⟩⟩
    · rw [hc] at hc'
      simp only [Option.some.injEq] at hc'
      subst hc'
      simp only [Status.running.injEq, Prog.step.injEq] at hr'
      obtain ⟨rfl, h1, h2⟩ := hr'
      have h1 := eq_of_heq h1
      have h2 := eq_of_heq h2
      subst h1 h2
      rw [he] at he'
      simp only [Option.some.injEq, Prod.mk.injEq] at he'
      obtain ⟨rfl, rfl⟩ := he'
      refine ⟨?_, rfl⟩
      show κ.setStatus c _ _ c = κ.calls c
      rw [setStatus_self, hc]
      simp [hb]
    · rw [hc] at hc'
      simp only [Option.some.injEq] at hc'
      subst hc'
      cases hr'
    · rw [hc] at hc'
      simp only [Option.some.injEq] at hc'
      subst hc'
      cases hr'

end

section

variable {l : List α} {κ : Cfg α β}

theorem Cfg.running_of {c : Cid} {r : Rec α β} {p : Prog α (Ret α β)} (hc : κ.calls c = some r)
    (hr : r.status = .running p) : κ.Running c r.op := by
  obtain ⟨op, ct, st, s⟩ := r
  simp only at hr
  subst hr
  exact ⟨ct, st, p, hc⟩

theorem FailGrow.bound {c : Cid} {w0 w : World α} {items : List (Option α)} {n : Nat} {U : Nat → Prop}
    {d : List (Ev α)} {k : PanicKind} {b : Nat} (h : FailGrow c w0 w items n U d k b) :
    d.filterMap resv = [(c, b, n)] ∧ ((k = .maxCapacity ∧ w.mem.maxCap < b + n) ∨ b + n ≤ w.mem.cap) := by
  obtain ⟨-, -, vs, rfl, -, -, h5⟩ := h
  refine ⟨by rw [List.filterMap_cons, resv_reserve, pubs_resv], ?_⟩
  rcases h5 with ⟨rfl, -, h5⟩ | ⟨-, h5, -⟩ | ⟨-, h5, -⟩
  · exact .inl ⟨rfl, h5⟩
  · exact .inr h5
  · exact .inr h5

/-- If somebody waits for capacity, the owner of the position at which the storage has to grow is running. -/
theorem CfgInv.capOwner (h : CfgInv (.ofList l) κ) (hp : κ.GrowthIntact) {i : Nat} (hci : κ.w.mem.cap < i)
    (hil : i < κ.w.spec.len) (him : i < κ.w.mem.maxCap) (ho : κ.w.spec.owner i ≠ κ.w.spec.owner κ.w.mem.cap) :
    ∃ r p n, κ.calls (κ.w.spec.owner κ.w.mem.cap) = some r ∧ r.status = .running p ∧ r.op.size = some n := by
  have hcl : κ.w.mem.cap < κ.w.spec.len := by omega
  have hnone : ∀ j, κ.w.mem.cap ≤ j → κ.w.spec.val j = none := by
    intro j hj
    rcases hv : κ.w.spec.val j with _ | v
    · rfl
    · have := h.inv.pub_cap j (by rw [hv]; rfl); omega
  have hlen : l.length ≤ κ.w.mem.cap := by
    rcases Nat.lt_or_ge κ.w.mem.cap l.length with hlt | hge
    · exfalso
      have h0 : ((SpecSt.ofList l).val κ.w.mem.cap).isSome := by
        simp [SpecSt.ofList, hlt]
      have := specAt_pub h.inv.legal h0
      rw [← h.inv.spec_eq, hnone _ (Nat.le_refl _)] at this
      cases this
    · exact hge
  obtain ⟨b, n, hres, hb1, hb2⟩ := Legal.owner_reserved h.inv.legal (i := κ.w.mem.cap)
    (by rw [← h.inv.spec_eq]; exact hcl) hlen
  rw [← h.inv.spec_eq] at hres
  generalize hd : κ.w.spec.owner κ.w.mem.cap = d at *
  obtain ⟨op, ⟨ct, st, s, hcd⟩, hsz⟩ := h.reserve_call hres
  have hfm : (d, b, n) ∈ (dataOf d κ.w.trace).filterMap resv :=
    mem_resv.2 (mem_dataOf.2 ⟨hres, rfl, rfl⟩)
  cases s with
  | running p => exact ⟨_, p, n, hcd, rfl, hsz⟩
  | done x et fin =>
    exfalso
    obtain ⟨dd, hi⟩ := h.returned hcd
    obtain ⟨b', vs, -, -, hvl, hdd, -⟩ := hi.growth hsz
    rw [hi.data, hdd, List.filterMap_cons, resv_reserve, pubs_resv] at hfm
    simp only [List.mem_singleton, Prod.mk.injEq, and_true, true_and] at hfm
    subst hfm
    have hk : κ.w.mem.cap - b < vs.length := by omega
    have hmem : Ev.publish d (b + (κ.w.mem.cap - b)) (vs[κ.w.mem.cap - b]) ∈ dataOf d κ.w.trace := by
      rw [hi.data, hdd]
      exact List.mem_cons_of_mem _ (mem_pubs (List.getElem?_eq_getElem hk))
    have := h.inv.legal.publish_pub (mem_dataOf.1 hmem).1
    rw [← h.inv.spec_eq, show b + (κ.w.mem.cap - b) = κ.w.mem.cap by omega, hnone _ (Nat.le_refl _)] at this
    cases this
  | panicked k et fin =>
    exfalso
    obtain ⟨U, dd, hi⟩ := h.panicked hcd
    obtain ⟨hp1, hp2⟩ := hp d op k fin.mem ⟨ct, st, et, fin, hcd⟩ ⟨_, et, fin, hcd, rfl, rfl⟩
    have hcap := hi.ev2.cap
    have hlen2 := hi.invFin.len_eq
    have hout := hi.out
    -- an extend family failure
    have hgrow : ∀ items b', FailGrow d st fin items n U dd k b' → False := by
      intro items b' hf
      obtain ⟨hd1, hd2⟩ := hf.bound
      rw [hi.data, hd1] at hfm
      simp only [List.mem_singleton, Prod.mk.injEq, and_true, true_and] at hfm
      subst hfm
      rcases hd2 with ⟨hk, hmx⟩ | hle
      · have := hp1 hk
        apply ho
        have hl' : i < b + n := by omega
        -- i belongs to the same reservation
        obtain ⟨b2, n2, hres2, hb3, hb4⟩ := Legal.owner_reserved h.inv.legal (i := i)
          (by rw [← h.inv.spec_eq]; exact hil) (by omega)
        rw [← h.inv.spec_eq] at hres2
        exact h.inv.legal.reserve_inj hres2 hres ⟨hb3, hb4⟩ ⟨by omega, hl'⟩
      · omega
    cases op <;> simp only [Op.size, Option.some.injEq, reduceCtorEq] at hsz <;> simp only [Op.Failure] at hout
    case push v =>
      obtain ⟨i', -, rfl, hm, hdd, -⟩ := hout
      rw [hi.data, hdd] at hfm
      simp only [List.filterMap_cons, resv_reserve, List.filterMap_nil, List.mem_singleton, Prod.mk.injEq,
        true_and] at hfm
      have := hp1 rfl
      omega
    case pushForIdx f =>
      obtain ⟨i', -, hdd, hU, ho'⟩ := hout
      rw [hi.data, hdd] at hfm
      simp only [List.filterMap_cons, resv_reserve, List.filterMap_nil, List.mem_singleton, Prod.mk.injEq,
        true_and] at hfm
      rcases ho' with ⟨rfl, hm, -⟩ | ⟨rfl, -⟩
      · have := hp1 rfl
        omega
      · have h1 := hp2 f rfl rfl
        have h2 : b < fin.spec.len := by
          have hmem : Ev.reserve d b n ∈ fin.trace := by
            have : Ev.reserve d b n ∈ dataOf d fin.trace := by rw [hi.dataFin, hdd]; simp [hfm]
            exact (mem_dataOf.1 this).1
          have := (hi.invFin.legal.reserve_ge hmem)
          rw [← hi.invFin.spec_eq] at this
          omega
        omega
    case extend it => subst hsz; obtain ⟨b', hf⟩ := hout; exact hgrow _ b' hf
    case extendN items n' => subst hsz; obtain ⟨b', hf⟩ := hout; exact hgrow _ b' hf
    case extendForIdx f n' =>
      subst hsz
      obtain ⟨b', ⟨-, hf⟩ | ⟨it, -, -, hf⟩ | ⟨-, hdd, -, hcp, -⟩⟩ := hout
      · exact hgrow _ b' hf
      · exact hgrow _ b' hf
      · rw [hi.data, hdd] at hfm
        simp only [List.filterMap_cons, resv_reserve, List.filterMap_nil, List.mem_singleton, Prod.mk.injEq,
          and_true, true_and] at hfm
        subst hfm
        have := hcp (by omega)
        omega

/-- The owner of the position at which the storage has to grow does not wait. -/
theorem CfgInv.capOwner_not_blocked (h : CfgInv (.ofList l) κ) (hcl : κ.w.mem.cap < κ.w.spec.len) :
    ¬ κ.Blocked (κ.w.spec.owner κ.w.mem.cap) := by
  rw [h.blocked_iff]
  rintro ⟨r, a, again, k, b, hc, hr, he, hb, hok⟩
  cases a <;> simp only [BlockOK] at hok
  · exact hok.2.1 rfl
  · have := h.inv.pub_cap _ (hok.2.1 _ hcl rfl)
    omega

/-- A blocked call that waits for capacity waits for a running growth call that can proceed. -/
theorem CfgInv.cap_progress (h : CfgInv (.ofList l) κ) (hp : κ.GrowthIntact) {c : Cid} {r : Rec α β} {o : MOrd}
    {nested : Nat → Nat → Prop} (_hc : κ.calls c = some r) (hok : BlockOK c nested κ.w (.capLoad o : Act α)) :
    ∃ d op n, κ.Running d op ∧ op.size = some n ∧ ¬ κ.Blocked d := by
  obtain ⟨-, hne, i, h1, h2, h3, h4⟩ := hok
  obtain ⟨rd, p, n, hcd, hrd, hsz⟩ := h.capOwner hp h1 h2 h3 (by rw [h4]; exact Ne.symm hne)
  exact ⟨_, rd.op, n, Cfg.running_of hcd hrd, hsz, h.capOwner_not_blocked (by omega)⟩

/-- If all swaps are ordered, somebody can proceed. -/
theorem CfgInv.progress (h : CfgInv (.ofList l) κ) (hp : κ.GrowthIntact)
    (hsw : ∀ c op, κ.Called c op → op.Ordered) : ∀ (N : Nat) (c : Cid), κ.Blocked c →
    (∀ r a again k i s1 s2 o1 o2, κ.calls c = some r → r.status = .running (.step a again k) →
      a = .stCas i s1 s2 o1 o2 → κ.w.spec.len ≤ N + i) →
    ∃ d op, κ.Running d op ∧ ¬ κ.Blocked d := by
  intro N
  induction N with
  | zero =>
    intro c hb hN
    obtain ⟨r, a, again, k, b, hc, hr, he, hb, hok⟩ := h.blocked_iff.1 hb
    cases a <;> simp only [BlockOK] at hok
    · obtain ⟨d, op, n, h1, -, h2⟩ := h.cap_progress hp (o := .acquire) (nested := fun _ _ => True) hc hok
      exact ⟨d, op, h1, h2⟩
    · rename_i i s1 s2 o1 o2
      exfalso
      have h1 := hN r _ again k i s1 s2 o1 o2 hc hr rfl
      obtain ⟨d, hd⟩ := Option.isSome_iff_exists.1 ((h.inv.lock i).1 hok.1)
      have := h.inv.pub_len i (h.inv.pub_of_holder (by rw [hd]; rfl))
      omega
  | succ N ih =>
    intro c hb hN
    obtain ⟨r, a, again, k, b, hc, hr, he, hb, hok⟩ := h.blocked_iff.1 hb
    cases a <;> simp only [BlockOK] at hok
    · obtain ⟨d, op, n, h1, -, h2⟩ := h.cap_progress hp (o := .acquire) (nested := fun _ _ => True) hc hok
      exact ⟨d, op, h1, h2⟩
    · rename_i i s1 s2 o1 o2
      obtain ⟨d, hd⟩ := Option.isSome_iff_exists.1 ((h.inv.lock i).1 hok.1)
      obtain ⟨rd, p, hcd, hrd⟩ := h.holder hd
      by_cases hbd : κ.Blocked d
      · refine ih d hbd ?_
        intro r' a' again' k' i' s1' s2' o1' o2' hc' hr' ha'
        obtain ⟨r2, a2, again2, k2, b2, hc2, hr2, -, -, hok2⟩ := h.blocked_iff.1 hbd
        rw [hc2] at hc'
        simp only [Option.some.injEq] at hc'
        subst hc'
        rw [hr2] at hr'
        simp only [Status.running.injEq, Prog.step.injEq] at hr'
        obtain ⟨rfl, -⟩ := hr'
        subst ha'
        simp only [BlockOK] at hok2
        obtain ⟨op2, ct2, st2, s2⟩ := r2
        have hlt := (hsw d op2 ⟨ct2, st2, s2, hc2⟩).nested (hok2.2.2 i hd)
        have := hN r _ again k i s1 _ o1 o2 hc hr rfl
        omega
      · exact ⟨d, rd.op, Cfg.running_of hcd hrd, hbd⟩

end

/-! ## Waiting forever -/

section

variable {l : List α} {κ κ' : Cfg α β}

theorem Reach.leads {m : Mem α} (h : Reach m l κ) (h' : κ.Leads κ') : Reach m l κ' := by
  induction h' with
  | refl => exact h
  | step _ hs ih => exact ih.step hs

/-- Call `c` tries to lock position `j`. -/
def Cfg.WaitsFor (κ : Cfg α β) (c : Cid) (r : Rec α β) (j : Nat) : Prop :=
  κ.calls c = some r ∧ ∃ o f again k, r.status = .running (.step (.stCas j .SOME .RESERVED o f) again k) ∧
    again (some .RESERVED) = true

theorem Cfg.WaitsFor.moves {c : Cid} {r : Rec α β} {j : Nat} {σ₀ : SpecSt α} (hI : CfgInv σ₀ κ)
    (h : κ.WaitsFor c r j) (hl : (κ.w.holder j).isSome) (hmv : κ.Moves c κ') :
    κ'.w = κ.w ∧ ∀ d, κ'.calls d = κ.calls d := by
  obtain ⟨hc, o, f, again, k, hr, hag⟩ := h
  have hst := (hI.inv.lock j).2 hl
  obtain ⟨r', hc', ⟨a', again', k', w', b', hr', he', rfl⟩ | ⟨x, hr', rfl⟩ | ⟨x, hr', rfl⟩⟩ := hmv
  · rw [hc] at hc'
    simp only [Option.some.injEq] at hc'
    subst hc'
    rw [hr] at hr'
    simp only [Status.running.injEq, Prog.step.injEq] at hr'
    obtain ⟨rfl, h1, h2⟩ := hr'
    have h1 := eq_of_heq h1
    have h2 := eq_of_heq h2
    subst h1 h2
    have hcap := hI.inv.cap_of_holder hl
    simp only [World.exec, Act.exec, hcap, if_true, hst, reduceCtorEq, if_false, Act.events, List.append_nil,
      List.foldl_nil, Act.holderNext, Act.growerNext, Option.some.injEq, Prod.mk.injEq] at he'
    obtain ⟨rfl, rfl⟩ := he'
    refine ⟨rfl, fun d => ?_⟩
    show κ.setStatus c _ _ d = κ.calls d
    by_cases hd : d = c
    · subst hd
      rw [setStatus_self, hc, if_pos hag, ← hr]
    · rw [setStatus_other hd]
  · rw [hc] at hc'
    simp only [Option.some.injEq] at hc'
    subst hc'
    rw [hr] at hr'; cases hr'
  · rw [hc] at hc'
    simp only [Option.some.injEq] at hc'
    subst hc'
    rw [hr] at hr'; cases hr'

/-- `c` waits for `d`, which waits for `c`: forever. (`c = d` is possible.) -/
theorem Cfg.Leads.wait_pair {m : Mem α} (hm : InitMem m l) (hκ : Reach m l κ) {c d : Cid} {rc rd : Rec α β} {i j : Nat}
    (h1 : κ.WaitsFor c rc j) (h2 : κ.WaitsFor d rd i) (h3 : κ.w.holder i = some c) (h4 : κ.w.holder j = some d)
    (hl : κ.Leads κ') :
    κ'.WaitsFor c rc j ∧ κ'.WaitsFor d rd i ∧ κ'.w.holder i = some c ∧ κ'.w.holder j = some d := by
  induction hl with
  | refl => exact ⟨h1, h2, h3, h4⟩
  | @step κ1 κ2 hl hs ih =>
    obtain ⟨g1, g2, g3, g4⟩ := ih
    have hI := (hκ.leads hl).inv hm
    obtain ⟨hc, o, f, again, k, hr, hag⟩ := g1
    obtain ⟨hd, o', f', again', k', hr', hag'⟩ := g2
    rcases hI.step_other hs hc hr with hmv | ⟨k1, k2⟩
    · obtain ⟨e1, e2⟩ := Cfg.WaitsFor.moves hI ⟨hc, o, f, again, k, hr, hag⟩ (by rw [g4]; rfl) hmv
      exact ⟨⟨by rw [e2, hc], o, f, again, k, hr, hag⟩, ⟨by rw [e2, hd], o', f', again', k', hr', hag'⟩,
        by rw [e1, g3], by rw [e1, g4]⟩
    · rcases hI.step_other hs hd hr' with hmv | ⟨k3, k4⟩
      · obtain ⟨e1, e2⟩ := Cfg.WaitsFor.moves hI ⟨hd, o', f', again', k', hr', hag'⟩ (by rw [g3]; rfl) hmv
        exact ⟨⟨by rw [e2, hc], o, f, again, k, hr, hag⟩, ⟨by rw [e2, hd], o', f', again', k', hr', hag'⟩,
          by rw [e1, g3], by rw [e1, g4]⟩
      · exact ⟨⟨k1, o, f, again, k, hr, hag⟩, ⟨k3, o', f', again', k', hr', hag'⟩, (k2.hold i g3).1, (k4.hold j g4).1⟩

theorem Cfg.WaitsFor.running {c : Cid} {r : Rec α β} {j : Nat} (h : κ.WaitsFor c r j) : κ.Running c r.op := by
  obtain ⟨hc, o, f, again, k, hr, -⟩ := h
  exact Cfg.running_of hc hr

/-- A step while call `c` is over: it does not grow the storage if `c` owns the position at which it has to grow. -/
theorem CfgInv.step_lost {σ₀ : SpecSt α} (h : CfgInv σ₀ κ) (hs : Step κ κ') {c : Cid} {r : Rec α β} {x}
    (hc : κ.calls c = some r) (he : r.status.ended = some x) (hlt : κ.w.mem.cap < κ.w.spec.len)
    (ho : κ.w.spec.owner κ.w.mem.cap = c) : κ'.w.mem.cap = κ.w.mem.cap := by
  cases hs with
  | invoke op hn hp => rfl
  | act c' r' a again k w' b hc' hr' he' =>
    have hne : c ≠ c' := by
      rintro rfl
      rw [hc] at hc'
      simp only [Option.some.injEq] at hc'
      subst hc'
      rw [hr'] at he; cases he
    obtain ⟨hsafe, -⟩ := h.running hc' hr'
    obtain ⟨hpre, -⟩ := hsafe _ h.inv (.refl _ _)
    exact (((exec_inv h.inv hpre he').2 c hne).capOwn hlt ho).1
  | ub c' r' a again k hc' hr' he' => rfl
  | ret c' r' x hc' hr' => rfl
  | panic c' r' x hc' hr' => rfl
  | reserveMax n hidle => rfl

end

/-- The initial elements are within the capacity. -/
theorem CfgInv.len0_cap (h : CfgInv (.ofList l) κ) : l.length ≤ κ.w.mem.cap := by
  rcases Nat.lt_or_ge κ.w.mem.cap l.length with hlt | hge
  · exfalso
    have h0 : ((SpecSt.ofList l).val κ.w.mem.cap).isSome := by simp [SpecSt.ofList, hlt]
    have := specAt_pub h.inv.legal h0
    rw [← h.inv.spec_eq] at this
    have := h.inv.pub_cap _ this
    omega
  · exact hge

theorem Exec.leads {m : Mem α} {n : Nat} {κ : Nat → Cfg α β} (h : Exec m l n κ) {s : Nat} : ∀ {t}, s ≤ t → t ≤ n →
    (κ s).Leads (κ t) := by
  intro t hst
  induction hst with
  | refl => exact fun _ => .refl
  | @step t hst ih => exact fun ht => .step (ih (by omega)) (h.next t (by omega))

theorem Cfg.Leads.evolves {m : Mem α} (hm : InitMem m l) (hκ : Reach m l κ) (hl : κ.Leads κ') : Evolves κ.w κ'.w := by
  induction hl with
  | refl => exact .refl _
  | step hl hs ih => exact ih.trans (((hκ.leads hl).inv hm).step_evolves hs)

/-- If the capacity has not changed since a moment at which more positions were reserved, no growth call invoked since
then has returned. -/
theorem Cfg.Leads.no_return {m : Mem α} (hm : InitMem m l) (hκ : Reach m l κ) (hl : κ.Leads κ')
    (hlt : κ.w.mem.cap < κ.w.spec.len) (hcap : κ'.w.mem.cap = κ.w.mem.cap) {d : Cid} {op : Op α β} {y : Ret α β}
    {sz : Nat} (hd : ∀ op', ¬ κ.Called d op') (hsz : op.size = some sz) (hpos : 0 < sz) : ¬ κ'.Returned d op y := by
  intro hret
  have hI := hκ.inv hm
  have hI' := (hκ.leads hl).inv hm
  have hev := hl.evolves hm hκ
  obtain ⟨b, vs, rfl, -, -, -⟩ := hI'.retGrowth hret hsz
  have hres := hI'.retReserve hret hsz
  obtain ⟨vs, -, hvl, hpub⟩ := hI'.retPublish hret hsz
  have hp := hpub 0 _ (List.getElem?_eq_getElem (by omega : 0 < vs.length))
  have hpv := hI'.inv.legal.publish_pub hp
  rw [← hI'.inv.spec_eq, Nat.add_zero] at hpv
  have hbc := hI'.inv.pub_cap b hpv
  have hb := hI'.inv.legal.reserve_ge hres
  have hb0 : l.length ≤ b := hb.1
  have hlt : b < κ.w.spec.len := by omega
  obtain ⟨b1, n1, k1, -, -⟩ := Legal.owner_reserved hI.inv.legal (i := b) (by rw [← hI.inv.spec_eq]; exact hlt) hb0
  obtain ⟨b2, n2, k2, k3, k4⟩ := Legal.owner_reserved hI'.inv.legal (i := b) (by omega) hb0
  have := hI'.inv.legal.reserve_inj k2 hres ⟨k3, k4⟩ ⟨by omega, by omega⟩
  rw [← hI'.inv.spec_eq, hev.owner b hlt] at this
  rw [← hI.inv.spec_eq, this] at k1
  obtain ⟨op', h1, -⟩ := hI.reserve_call k1
  exact hd op' h1

/-- A lost position stops the growth of the capacity, and with it all later growth calls. -/
theorem Cfg.Leads.lost {m : Mem α} (hm : InitMem m l) (hκ : Reach m l κ) {c : Cid} {r : Rec α β} {x}
    (hc : κ.calls c = some r) (he : r.status.ended = some x) (hlt : κ.w.mem.cap < κ.w.spec.len)
    (ho : κ.w.spec.owner κ.w.mem.cap = c) (hl : κ.Leads κ') :
    κ'.w.mem.cap = κ.w.mem.cap ∧
    ∀ d op y sz, (∀ op', ¬ κ.Called d op') → op.size = some sz → 0 < sz → ¬ κ'.Returned d op y := by
  have hcap : κ'.w.mem.cap = κ.w.mem.cap ∧ κ'.calls c = some r := by
    induction hl with
    | refl => exact ⟨rfl, hc⟩
    | @step κ1 κ2 hl hs ih =>
      have hI := (hκ.leads hl).inv hm
      have hev := hl.evolves hm hκ
      obtain ⟨r2, g1, g2⟩ := hI.step_rec hs ih.2
      rw [g2.ended x he] at g1
      have hlt1 := hev.len
      refine ⟨(hI.step_lost hs ih.2 he (by omega) ?_).trans ih.1, g1⟩
      rw [ih.1, hev.owner _ hlt, ho]
  exact ⟨hcap.1, fun d op y sz hd hsz hpos => hl.no_return hm hκ hlt hcap.1 hd hsz hpos⟩

end Verif
