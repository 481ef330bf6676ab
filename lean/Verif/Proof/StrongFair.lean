import Verif.Proof.Stalled
import Verif.Proof.Uses

/-!
# Strongly fair infinite executions

Helper file (no property statements).
-/

namespace Verif

variable {α β : Type} {m : Mem α} {l : List α} {κ : Nat → Cfg α β}

/-- A locked element that stays locked over a step keeps its holder. -/
theorem CfgInv.holder_step {κ κ' : Cfg α β} (h : CfgInv (.ofList l) κ) (hs : Step κ κ') {i : Nat} {d : Cid}
    (hd : κ.w.holder i = some d) (hi : (κ'.w.holder i).isSome) : κ'.w.holder i = some d := by
  cases hs with
  | invoke op hn hp => exact hd
  | act c r a again k w' b hc hr he =>
    obtain ⟨hsafe, -⟩ := h.running hc hr
    obtain ⟨hpre, -⟩ := hsafe _ h.inv (.refl _ _)
    have hrely := (exec_inv h.inv hpre he).2
    obtain ⟨e, he'⟩ := Option.isSome_iff_exists.1 hi
    change w'.holder i = some e at he'
    change w'.holder i = some d
    by_cases hcd : d = c
    · by_cases hed : e = c
      · rw [he', hed, hcd]
      · have := (hrely e hed).nohold i he'
        rw [hd] at this
        rw [he', this]
    · exact ((hrely d hcd).hold i hd).1
  | ub c r a again k hc hr he => exact hd
  | ret c r x hc hr => exact hd
  | panic c r x hc hr => exact hd
  | reserveMax n hidle => exact hd

/-- A call that has locked an element, which has been locked ever since, holds it. -/
theorem Exec.holder_of_locked {n : Nat} {κ : Nat → Cfg α β} (h : Exec m l n κ) (hm : InitMem m l) {c : Cid} {i : Nat}
    {t : Nat} (ht : t ≤ n) (hl : HasLocked κ t c i) : (κ t).w.holder i = some c := by
  obtain ⟨u, hu, ⟨o, f, op, ct, st, again, k, hc⟩, hmv, hso, hres⟩ := hl
  have hfirst : (κ (u + 1)).w.holder i = some c := by
    obtain ⟨r, hc', hcase⟩ := hmv
    rw [hc] at hc'
    simp only [Option.some.injEq] at hc'
    subst hc'
    rcases hcase with ⟨a, ag, k', w', b, hr, he, hκ'⟩ | ⟨x, hr, -⟩ | ⟨x, hr, -⟩
    · simp only [Status.running.injEq, Prog.step.injEq] at hr
      obtain ⟨rfl, h1, h2⟩ := hr
      have hcap := (h.inv hm (by omega : u ≤ n)).inv.pub_cap i (by
        rcases hv : (κ u).w.spec.val i with _ | v
        · rw [((h.inv hm (by omega : u ≤ n)).inv.st_none i).2 hv] at hso; cases hso
        · rfl)
      simp only [World.exec, Act.exec, hcap, if_true, hso] at he
      simp only [Option.some.injEq, Prod.mk.injEq] at he
      obtain ⟨rfl, rfl⟩ := he
      rw [hκ']
      simp [Act.holderNext, upd_apply]
    · cases hr
    · cases hr
  have key : ∀ v, u + 1 ≤ v → v ≤ t → (κ v).w.holder i = some c := by
    intro v hv
    induction hv with
    | refl => exact fun _ => hfirst
    | @step v hv ih =>
      intro hvt
      have hv' : u + 1 ≤ v := hv
      refine (h.inv hm (by omega : v ≤ n)).holder_step (h.next v (by omega)) (ih (by omega)) ?_
      exact ((h.inv hm (by omega : v + 1 ≤ n)).inv.lock i).1 (hres (v + 1) (by omega) hvt)
  exact key t (by omega) (Nat.le_refl t)

/-- A call that stays where it is forever is blocked from some moment on, if scheduling is strongly fair. -/
theorem InfExec.blocked_forever (h : InfExec m l κ) (hm : InitMem m l) {S : Cid → Prop} (hf : StronglyFairExcept S κ) {c : Cid}
    (hcS : ¬ S c) {t : Nat} {r : Rec α β}
    {p : Prog α (Ret α β)} (hr : r.status = .running p) (hst : ∀ s, t ≤ s → (κ s).calls c = some r) :
    ∃ T, t ≤ T ∧ ∀ s, T ≤ s → (κ s).Blocked c := by
  classical
  by_contra hno
  have hinf : ∀ t1, ∃ t', t1 ≤ t' ∧ (∃ op, (κ t').Running c op) ∧ ¬ (κ t').Blocked c := by
    intro t1
    by_contra hn
    refine hno ⟨max t t1, by omega, fun s hs => ?_⟩
    by_contra hb
    exact hn ⟨s, by omega, ⟨_, Cfg.running_of (hst s (by omega)) hr⟩, hb⟩
  obtain ⟨s, hs, hb, hmv⟩ := hf.2 c hcS hinf t
  rcases (h.inv hm s).moves hmv (hst s hs) with ⟨hb', -⟩ | ⟨r', h1, h2⟩
  · exact hb hb'
  · rw [hst (s + 1) (by omega)] at h1
    simp only [Option.some.injEq] at h1
    subst h1
    rcases h2 with h2 | ⟨a, again, k, b, h2, -, h3⟩
    · rw [hr] at h2; cases h2
    · have h4 := congrArg Rec.status h3
      simp only at h4
      rw [h2] at h4
      simp only [Status.running.injEq] at h4
      exact Prog.cont_ne _ a again k b rfl h4.symm

theorem StronglyFair.except (h : StronglyFair κ) : StronglyFairExcept (fun _ => False) κ :=
  ⟨h.1.except, fun c _ => h.2 c⟩

/-- The calls in `S` hold at most elements in `E` from some moment on, each from its own. -/
def HoldOnly (S : Cid → Prop) (E : Nat → Prop) (κ : Nat → Cfg α β) : Prop :=
  ∀ c, S c → ∃ T, ∀ s, T ≤ s → ∀ i, (κ s).w.holder i = some c → E i

/-- No call outside `S` waits forever for an element outside `E`. -/
theorem InfExec.not_stuck_lock (h : InfExec m l κ) (hm : InitMem m l) {S : Cid → Prop} {E : Nat → Prop}
    (hf : StronglyFairExcept S κ) (hS : Allocated S κ) (hE : HoldOnly S E κ)
    (hEs : ∀ t c op i j, ¬ S c → (κ t).Called c op → op.SwapsWith i j → E j → E i) (hp : ∀ t, (κ t).GrowthIntact)
    (hsw : ∀ t c op, ¬ S c → (κ t).Called c op → op.SwapsUp) :
    ∀ (N : Nat) (c : Cid) (t : Nat) (r : Rec α β) (i : Nat) (s1 s2 : CState) (o1 o2 : MOrd) (again : (Act.stCas i s1 s2 o1 o2 : Act α).Resp → Bool)
      (k : (Act.stCas i s1 s2 o1 o2 : Act α).Resp → Prog α (Ret α β)),
      ¬ S c → ¬ E i → r.status = .running (.step (.stCas i s1 s2 o1 o2) again k) →
      (∀ s, t ≤ s → (κ s).calls c = some r ∧ Rely c (κ t).w (κ s).w) → (κ t).w.mem.maxCap ≤ N + i → False := by
  intro N
  induction N with
  | zero =>
    intro c t r i s1 s2 o1 o2 again k hcS hEi hr hst hN
    obtain ⟨T, hT, hbl⟩ := h.blocked_forever hm hf hcS hr fun s hs => (hst s hs).1
    obtain ⟨r2, a2, g2, k2, b2, hc2, hr2, -, -, hok⟩ := (h.inv hm T).blocked_iff.1 (hbl T (Nat.le_refl T))
    rw [(hst T hT).1] at hc2
    simp only [Option.some.injEq] at hc2
    subst hc2
    rw [hr] at hr2
    simp only [Status.running.injEq, Prog.step.injEq] at hr2
    obtain ⟨rfl, -, -⟩ := hr2
    simp only [BlockOK] at hok
    have hI := (h.inv hm T).inv
    have h1 := hI.pub_cap i (hI.pub_of_holder ((hI.lock i).1 hok.1))
    have h2 := hI.good
    have h3 := (hst T hT).2.maxCap
    have h4 := (κ T).w.mem.pol.good_le h2
    omega
  | succ N ih =>
    intro c t r i s1 s2 o1 o2 again k hcS hEi hr hst hN
    obtain ⟨T, hT, hbl⟩ := h.blocked_forever hm hf hcS hr fun s hs => (hst s hs).1
    have hres : ∀ s, T ≤ s → ((κ s).w.holder i).isSome := by
      intro s hs
      obtain ⟨r2, a2, g2, k2, b2, hc2, hr2, -, -, hok⟩ := (h.inv hm s).blocked_iff.1 (hbl s hs)
      rw [(hst s (by omega)).1] at hc2
      simp only [Option.some.injEq] at hc2
      subst hc2
      rw [hr] at hr2
      simp only [Status.running.injEq, Prog.step.injEq] at hr2
      obtain ⟨rfl, -, -⟩ := hr2
      simp only [BlockOK] at hok
      exact ((h.inv hm s).inv.lock i).1 hok.1
    obtain ⟨d, hd⟩ := Option.isSome_iff_exists.1 (hres T (Nat.le_refl T))
    have hhold : ∀ s, T ≤ s → (κ s).w.holder i = some d := by
      intro s hs
      induction hs with
      | refl => exact hd
      | @step s hs ihs => exact (h.inv hm s).holder_step (h.next s) ihs (hres (s + 1) (by have : T ≤ s := hs; omega))
    obtain ⟨rd, pd, hcd, hrd⟩ := (h.inv hm T).holder hd
    have hdS : ¬ S d := by
      intro hdS
      obtain ⟨T', hT'⟩ := hE d hdS
      exact hEi (hT' (max T T') (by omega) i (hhold _ (by omega)))
    rcases h.ends_or_stuck hm hf.1 (P := fun _ => True) (fun a again k b hh => trivial) hdS pd T rd hcd hrd trivial with
      ⟨t', r', x, h1, h2, h3⟩ | ⟨t', r', a, again', k', h1, h2, -, h4, h5⟩
    · obtain ⟨rd', pd', hcd', hrd'⟩ := (h.inv hm t').holder (hhold t' h1)
      rw [h2] at hcd'
      simp only [Option.some.injEq] at hcd'
      subst hcd'
      rw [hrd'] at h3; cases h3
    · by_cases hn : ∀ j e n o f, a ≠ .stCas j e n o f
      · exact h.not_stuck_cap hm hf.1 hS hp h2 hn h4 h5
      · simp only [not_forall, Classical.not_not] at hn
        obtain ⟨j, e, n, o, f, rfl⟩ := hn
        obtain ⟨s, hs, hb⟩ := h5 t' (Nat.le_refl t')
        obtain ⟨r2, a2, g2, k2, b2, hc2, hr2, -, -, hok⟩ := (h.inv hm s).blocked_iff.1 hb
        rw [(h4 s hs).1] at hc2
        simp only [Option.some.injEq] at hc2
        subst hc2
        rw [h2] at hr2
        simp only [Status.running.injEq, Prog.step.injEq] at hr2
        obtain ⟨rfl, -, -⟩ := hr2
        simp only [BlockOK] at hok
        obtain ⟨op2, ct2, st2, s2'⟩ := r'
        have hcall : (κ s).Called d op2 := ⟨ct2, st2, s2', (h4 s hs).1⟩
        have hnest := hok.2.2 i (hhold s (by omega))
        refine ih d t' _ j _ _ _ _ _ k' hdS (fun hEj => hEi (hEs s d op2 i j hdS hcall (Op.nested_iff.1 hnest) hEj)) h2 h4 ?_
        have hlt := (hsw s d op2 hdS hcall).ordered.nested hnest
        have := (hst t' (by omega)).2.maxCap
        omega

/-- Every call outside `S` that uses no element in `E` ends. -/
theorem InfExec.ends_strong (h : InfExec m l κ) (hm : InitMem m l) {S : Cid → Prop} {E : Nat → Prop}
    (hf : StronglyFairExcept S κ) (hS : Allocated S κ) (hE : HoldOnly S E κ)
    (hEs : ∀ t c op i j, ¬ S c → (κ t).Called c op → op.SwapsWith i j → E j → E i) (hp : ∀ t, (κ t).GrowthIntact)
    (hsw : ∀ t c op, ¬ S c → (κ t).Called c op → op.SwapsUp) {c : Cid} {op : Op α β} {t : Nat}
    (hc : (κ t).Called c op) (hcS : ¬ S c) (hu : ∀ i, op.Uses i → ¬ E i) :
    ∃ t' r x, (κ t').calls c = some r ∧ r.status.ended = some x := by
  obtain ⟨t0, r, -, hc0, rfl, hr⟩ := h.called_at hm hc
  rcases h.ends_or_stuck hm hf.1 (P := fun p => p.LocksIn fun i => r.op.Uses i) (fun a again k b hh => hh.2 b) hcS _ t0 r
      hc0 hr r.op.locksIn with
    ⟨t', r', x, -, h2, h3⟩ | ⟨t', r', a, again, k, -, h2, hl, h4, h5⟩
  · exact ⟨t', r', x, h2, h3⟩
  · exfalso
    by_cases hn : ∀ j e n o f, a ≠ .stCas j e n o f
    · exact h.not_stuck_cap hm hf.1 hS hp h2 hn h4 h5
    · simp only [not_forall, Classical.not_not] at hn
      obtain ⟨j, e, n, o, f, rfl⟩ := hn
      exact h.not_stuck_lock hm hf hS hE hEs hp hsw (κ t').w.mem.maxCap c t' r' j e n o f again k hcS
        (hu j (hl.1 j e n o f rfl)) h2 h4 (Nat.le_add_right _ _)

end Verif
