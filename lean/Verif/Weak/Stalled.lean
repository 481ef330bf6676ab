import Verif.Weak.Progress
import Verif.Weak.Trace
import Verif.Weak.SpecStall
import Verif.Proof.Uses
import Verif.Proof.Wrap

/-!
# Calls that are not scheduled fairly, under weak memory

Helper file (no property statements): what the calls hold and own comes from the functions they execute; calls that do not grow the
vector and that use only some elements do not hinder the calls that do not use them.
-/

namespace Verif.Weak

variable {α β : Type} {D : Mode} {mx n : Nat} {κ κ' : Cfg α β} {K K0 K' K0' : Cid → Know} {m : Mem α} {l : List α}

theorem Reach.locksIn (h : Reach m κ) {c : Cid} {r : Rec α β} {p : Prog α (Ret α β)} (hc : κ.calls c = some r)
    (hr : r.status = .running p) : p.LocksIn fun i => r.op.Uses i := by
  induction h generalizing c r p with
  | init => cases hc
  | @step κ κ' hre hs ih =>
    have key : ∀ (d : Cid) (x : Rec α β), upd κ.calls d (some x) c = some r → κ.calls c = some r ∨ (c = d ∧ x = r) := by
      intro d x h
      rw [upd_apply] at h
      split at h
      · next e => cases h; exact .inr ⟨e, rfl⟩
      · exact .inl h
    cases hs with
    | call op H V hH hn hp =>
      rcases key _ _ hc with h | ⟨-, rfl⟩
      · exact ih h hr
      · cases hr; exact op.locksIn
    | act d q a again k t V m b hd hq he =>
      rcases key _ _ hc with h | ⟨rfl, rfl⟩
      · exact ih h hr
      · have h1 := ih hd hq
        simp only [Status.running.injEq] at hr
        subst hr
        split
        · exact h1
        · exact h1.2 b
    | bad d q a again k t x hd hq he => exact ih hc hr
    | ret d q x hd hq =>
      rcases key _ _ hc with h | ⟨rfl, rfl⟩
      · exact ih h hr
      · cases hr
    | panic d q k hd hq =>
      rcases key _ _ hc with h | ⟨rfl, rfl⟩
      · exact ih h hr
      · cases hr
    | reserveMax q hi => exact ih hc hr

/-- Only growth calls receive positions. -/
theorem reserves_size (hm : InitMem m l) (h : Reach m κ) (ho : ∀ c op, κ.Called c op → Allowed D op) {c : Cid} {r : Rec α β} {k : Nat}
    {o : MOrd} {again : (Act.resFetchAdd k o : Act α).Resp → Bool} {f : (Act.resFetchAdd k o : Act α).Resp → Prog α (Ret α β)}
    (hc : κ.calls c = some r) (hr : r.status = .running (.step (.resFetchAdd k o) again f)) {b : Nat} (hb : again b = false) :
    r.op.size = some k := by
  obtain ⟨K, K0, S, t, -, hT⟩ := tinv hm h ho
  have hf := hT.fit c r hc
  unfold Fit at hf
  rw [hr] at hf
  have := ((hf.2 b none trivial hb).1 _ (List.mem_singleton.2 rfl)).2
  exact (allows_reserve this).2

/-- Where handles and positions come from. -/
structure UInv (κ : Cfg α β) (K : Cid → Know) : Prop where
  l : ∀ c i, (K c).L i → ∃ op, κ.Called c op ∧ op.Uses i
  r : ∀ c i, (K c).R i → ∃ op sz, κ.Called c op ∧ op.size = some sz

theorem uinv_init : UInv (Cfg.init m : Cfg α β) (upd (fun _ => .empty) 0 (.start l.length)) := by
  refine ⟨fun c i hi => ?_, fun c i hi => ?_⟩ <;>
  · rw [upd_apply] at hi
    split at hi <;> exact hi.elim

theorem UInv.step (U : UInv κ K) (hm : InitMem m l) (h : Reach m κ) (ho : ∀ c op, κ.Called c op → Allowed D op) (hl : Later κ κ' K K')
    (hc : ∀ c op, κ.Called c op → κ'.Called c op) : UInv κ' K' := by
  refine ⟨fun c i hi => ?_, fun c i hi => ?_⟩
  · have old : (K c).L i → ∃ op, κ'.Called c op ∧ op.Uses i := fun h => by
      obtain ⟨op, h1, h2⟩ := U.l c i h
      exact ⟨op, hc c op h1, h2⟩
    rcases hl.came c with he | ⟨-, hn⟩ | ⟨r, a, again, k, b, hr, hs, hb, he⟩
    · exact old (he ▸ hi)
    · exact absurd hi (hn i).2
    · rw [he] at hi
      cases a with
      | stCas j e s ok fail =>
        cases b with
        | none =>
          rcases hi with hi | hi
          · exact old hi
          · exact ⟨r.op, hc c _ ⟨r, hr, rfl⟩, hi ▸ (h.locksIn hr hs).1 j e s ok fail rfl⟩
        | some x => exact old hi
      | stStore j s o => exact old hi.1
      | _ => exact old hi
  · have old : (K c).R i → ∃ op sz, κ'.Called c op ∧ op.size = some sz := fun h => by
      obtain ⟨op, sz, h1, h2⟩ := U.r c i h
      exact ⟨op, sz, hc c op h1, h2⟩
    rcases hl.came c with he | ⟨-, hn⟩ | ⟨r, a, again, k, b, hr, hs, hb, he⟩
    · exact old (he ▸ hi)
    · exact absurd hi (hn i).1
    · rw [he] at hi
      cases a with
      | resFetchAdd sz o => exact ⟨r.op, sz, hc c _ ⟨r, hr, rfl⟩, reserves_size hm h ho hr hs hb⟩
      | stCas j e s ok fail => cases b <;> exact old hi
      | _ => exact old hi

theorem upinv (hm : InitMem m l) (h : Reach m κ) (ho : ∀ c op, κ.Called c op → Allowed D op) :
    ∃ K K0, WInv D m.maxCap l.length κ K K0 ∧ PInv l.length κ K ∧ UInv κ K := by
  induction h with
  | init => exact ⟨_, _, winv_init hm, pinv_init hm, uinv_init⟩
  | step hr hs ih =>
    have ho1 := fun c op hc => ho c op (Step.called hs (Reach.new hr) hc)
    obtain ⟨K, K0, hi, hP, hU⟩ := ih ho1
    obtain ⟨K', K0', h1, h2, h3⟩ := PInv.step hi hP hs ho (Reach.exceeds (.step hr hs) hm ho)
    exact ⟨K', K0', h1, h2, hU.step hm hr ho1 h3 fun c op hc => Step.called hs (Reach.new hr) hc⟩

/-- A call that is about to store a value has storage for all its positions. -/
theorem stores_alloc (hW : WInv D mx n κ K K0) (hU : UInv κ K) {c : Cid} {i j : Nat} {v : α} (h : κ.Stores c i v) (hj : (K c).R j) :
    j < lastVal κ.mem.cap := by
  obtain ⟨r, again, k, hc, hr⟩ := h
  have hf := hW.fits c r hc
  unfold Fits at hf
  rw [hr] at hf
  rcases hf.1.2 with ⟨hL, -⟩ | ⟨-, hA⟩
  · obtain ⟨op, ⟨r1, h1, rfl⟩, hu⟩ := hU.l c i hL
    obtain ⟨op', sz, ⟨r2, h2, rfl⟩, hs⟩ := hU.r c j hj
    rw [h1] at h2; cases h2
    cases hop : r1.op <;> rw [hop] at hs hu <;> first | exact False.elim hu | exact absurd hs (by simp [Op.size])
  · exact ((hW.k c).a j (hA j hj)).2.1

section

variable {κ : Nat → Cfg α β} {K K0 : Nat → Cid → Know}

theorem ghost_stalled (hl : ∀ t, Later (κ t) (κ (t + 1)) (K t) (K (t + 1))) {T : Nat} {c : Cid} (hs : StalledFrom κ T c) {t : Nat}
    (ht : T ≤ t) : K t c = K T c := by
  induction ht with
  | refl => rfl
  | @step t ht ih => rw [← ih]; exact (hl t).own c ((hs (t + 1) (Nat.le_succ_of_le ht)).trans (hs t ht).symm)

theorem InfExec.ghost_used' (hm : InitMem m l) (h : InfExec m κ) (ho : ∀ t c op, (κ t).Called c op → Allowed D op)
    (hx : ∀ t, (κ t).Exceeds mx) : ∃ K K0 : Nat → Cid → Know, (∀ c i, ¬ (K 0 c).R i) ∧ ∀ t, (WInv D mx l.length (κ t) (K t) (K0 t) ∧ PInv l.length (κ t) (K t) ∧
      Later (κ t) (κ (t + 1)) (K t) (K (t + 1))) ∧ UInv (κ t) (K t) := by
  obtain ⟨K, K0, h0, hgh⟩ := h.ghost hm ho hx
  refine ⟨K, K0, fun c i hi => ?_, fun t => ⟨hgh t, ?_⟩⟩
  · rw [h0, upd_apply] at hi
    split at hi <;> exact hi.elim
  induction t with
  | zero => rw [h.init, h0]; exact uinv_init
  | succ t ih => exact ih.step hm (h.reach t) (ho t) (hgh t).2.2 fun c op hc => h.called (Nat.le_succ t) hc

theorem InfExec.ghost_used (hm : InitMem m l) (h : InfExec m κ) (ho : ∀ t c op, (κ t).Called c op → Allowed D op)
    (hx : ∀ t, (κ t).Exceeds mx) : ∃ K K0 : Nat → Cid → Know, ∀ t, (WInv D mx l.length (κ t) (K t) (K0 t) ∧ PInv l.length (κ t) (K t) ∧
      Later (κ t) (κ (t + 1)) (K t) (K (t + 1))) ∧ UInv (κ t) (K t) := by
  obtain ⟨K, K0, -, hgh⟩ := h.ghost_used' hm ho hx
  exact ⟨K, K0, hgh⟩

theorem Cfg.Allocated.le {κ : Cfg α β} {k : Nat} (h : κ.Allocated k) : k ≤ lastVal κ.mem.cap := by
  obtain ⟨q, hq, hk⟩ := h
  unfold lastVal
  rw [hq]; exact hk

theorem last_of {h : List (Msg Nat)} (hne : h ≠ []) : ∃ q, h.getLast? = some q ∧ q.val = lastVal h := by
  obtain ⟨q, hq⟩ := Option.ne_none_iff_exists'.1 (show h.getLast? ≠ none by simpa using hne)
  exact ⟨q, hq, by unfold lastVal; rw [hq]⟩

theorem allocated_of {κ : Cfg α β} {k : Nat} (hne : κ.mem.cap ≠ []) (h : k ≤ lastVal κ.mem.cap) : κ.Allocated k := by
  obtain ⟨q, hq, hv⟩ := last_of hne
  exact ⟨q, hq, by omega⟩

/-- Only the call itself performs its `fetch_add`. -/
theorem Step.takes {κ κ' : Cfg α β} (hs : Step κ κ') (hn : κ.calls κ.next = none) {c : Cid} {r : Rec α β} {k : Nat} {o : MOrd}
    {again : (Act.resFetchAdd k o : Act α).Resp → Bool} {f : (Act.resFetchAdd k o : Act α).Resp → Prog α (Ret α β)} (hc : κ.calls c = some r)
    (hr : r.status = .running (.step (.resFetchAdd k o) again f)) (hne : κ'.calls c ≠ κ.calls c) :
    κ.Moves c κ' ∧ lastVal κ'.mem.res = lastVal κ.mem.res + k := by
  cases hs with
  | call op H V hH h hp =>
    refine absurd (upd_other _ _ fun e => ?_) hne
    rw [e, hn] at hc; cases hc
  | act d q a ag g t V m b hd hq he =>
    by_cases hcd : c = d
    · subst hcd
      rw [hc] at hd; cases hd
      refine ⟨⟨r, hc, .inl ⟨a, ag, g, t, V, m, b, hq, he, rfl⟩⟩, ?_⟩
      rw [hr] at hq
      cases hq
      obtain ⟨-, h1, h2⟩ := exec_effect he
      exact h2.trans (by rw [h1])
    · exact absurd (upd_other _ _ hcd) hne
  | bad d q a ag g t x hd hq he => exact absurd rfl hne
  | ret d q x hd hq =>
    refine absurd (upd_other _ _ fun e => ?_) hne
    subst e
    rw [hc] at hd; cases hd
    rw [hr] at hq; cases hq
  | panic d q x hd hq =>
    refine absurd (upd_other _ _ fun e => ?_) hne
    subst e
    rw [hc] at hd; cases hd
    rw [hr] at hq; cases hq
  | reserveMax x hi => exact absurd rfl hne

/-- The positions a call owns are those it has received. -/
theorem InfExec.owns_received (h : InfExec m κ) (h0 : ∀ c i, ¬ (K 0 c).R i) (hW : ∀ t, WInv D mx l.length (κ t) (K t) (K0 t))
    (hl : ∀ t, Later (κ t) (κ (t + 1)) (K t) (K (t + 1))) {n : Nat} {c : Cid} {i : Nat} (hi : (K n c).R i) :
    ∃ b k, Received κ n c b k ∧ b ≤ i ∧ i < b + k := by
  induction n with
  | zero => exact absurd hi (h0 c i)
  | succ n ih =>
    have old : (K n c).R i → ∃ b k, Received κ (n + 1) c b k ∧ b ≤ i ∧ i < b + k := fun hi => by
      obtain ⟨b, k, ⟨t, ht, h1⟩, h2⟩ := ih hi
      exact ⟨b, k, ⟨t, Nat.lt_succ_of_lt ht, h1⟩, h2⟩
    rcases Classical.em ((K n c).R i) with hR | hR
    · exact old hR
    have hge : lastVal (κ n).mem.res ≤ i := ((hl n).new c i hi).resolve_left hR
    rcases (hl n).came c with he | ⟨-, hn⟩ | ⟨r, a, again, k, b, hr, hs, hb, he⟩
    · exact absurd (he ▸ hi) hR
    · exact absurd hi (hn i).1
    · have hne : (κ (n + 1)).calls c ≠ (κ n).calls c := fun e => hR ((hl n).own c e ▸ hi)
      have hi' := hi
      rw [he] at hi'
      cases a with
      | resFetchAdd sz o =>
        rcases h.next n with hst | hst
        · exact absurd (by rw [hst]) hne
        obtain ⟨h1, h2⟩ := hst.takes ((hW n).new _ (Nat.le_refl _)).1 hr hs hne
        refine ⟨lastVal (κ n).mem.res, sz, ⟨n, Nat.lt_succ_self n, ⟨r, o, again, k, hr, hs⟩, last_of (hW n).g.res_ne, h1⟩, hge, ?_⟩
        have h3 := ((hW (n + 1)).k c).r_rk i hi
        have h4 := ((hW (n + 1)).k c).rk.1
        omega
      | stCas j e s ok fail => cases b <;> exact absurd hi' hR
      | _ => exact absurd hi' hR

/-- A call owns the positions it has received. -/
theorem InfExec.received_owns (hW : ∀ t, WInv D mx l.length (κ t) (K t) (K0 t)) (hP : ∀ t, PInv l.length (κ t) (K t))
    (hl : ∀ t, Later (κ t) (κ (t + 1)) (K t) (K (t + 1))) {n : Nat} {c : Cid} {b k i : Nat} (h : Received κ n c b k) (h1 : b ≤ i)
    (h2 : i < b + k) : (K n c).R i := by
  obtain ⟨t, ht, ⟨r, o, again, f, hc, hr⟩, ⟨q, hq, rfl⟩, hmv⟩ := h
  have hlast : lastVal (κ t).mem.res = q.val := by unfold lastVal; rw [hq]
  have hold : ∀ d, ¬ (K t d).R i := fun d hd => by
    have h3 := ((hW t).k d).r_rk i hd
    have h4 := ((hW t).k d).rk.1
    omega
  have hlen : l.length ≤ i := by
    have h3 := (hW t).zrk
    have h4 := ((hW t).k 0).rk.1
    omega
  have hres : lastVal (κ (t + 1)).mem.res = q.val + k ∧ ∀ d, d ≠ c → (κ (t + 1)).calls d = (κ t).calls d := by
    obtain ⟨r', hc', ⟨a, ag, g, t', V, m', b, hs, he, hk⟩ | ⟨x, hs, -⟩ | ⟨x, hs, -⟩⟩ := hmv
    · rw [hc] at hc'; cases hc'
      rw [hr] at hs; cases hs
      obtain ⟨-, h3, h4⟩ := exec_effect he
      rw [hk]
      exact ⟨h4.trans (by rw [h3, hlast]), fun d hd => upd_other _ _ hd⟩
    · rw [hc] at hc'; cases hc'
      rw [hr] at hs; cases hs
    · rw [hc] at hc'; cases hc'
      rw [hr] at hs; cases hs
  obtain ⟨d, hd⟩ := (hP (t + 1)).cover i hlen (by omega)
  by_cases hdc : d = c
  · subst hdc; exact ghost_r hl ht hd
  · rw [(hl t).own d (hres.2 d hdc)] at hd
    exact absurd hd (hold d)

/-- When a call is about to store a value, storage for all positions it has received exists. -/
theorem InfExec.positions_allocated (hm : InitMem m l) (h : InfExec m κ) (ho : ∀ t c op, (κ t).Called c op → Allowed D op)
    (hx : ∀ t, (κ t).Exceeds mx) {n : Nat} {c : Cid} {b k i : Nat} {v : α} (hr : Received κ n c b k) (hk : 0 < k)
    (hs : (κ n).Stores c i v) : (κ n).Allocated (b + k) := by
  obtain ⟨K, K0, hgh⟩ := h.ghost_used hm ho hx
  have hW := fun t => (hgh t).1.1
  have h1 := InfExec.received_owns hW (fun t => (hgh t).1.2.1) (fun t => (hgh t).1.2.2) hr (i := b + k - 1) (by omega) (by omega)
  have h2 := stores_alloc (hW n) (hgh n).2 hs h1
  exact allocated_of (hW n).g.cap_ne (by omega)

theorem InfExec.ends_except (hm : InitMem m l) (h : InfExec m κ) {S : Cid → Prop} {E : Nat → Prop} (hf : StronglyFairExcept S κ)
    (hn : ∀ i j, D.nest i j → ¬ E i → i < j ∧ ¬ E j) (ho : ∀ t c op, (κ t).Called c op → Allowed D op) (hg : ∀ t, (κ t).GrowthIntact mx)
    (hS : ∀ t c op, S c → (κ t).Called c op → ∀ i, op.Uses i → E i)
    (hR : ∀ c, S c → (∀ t op, (κ t).Called c op → op.size = none) ∨ ∃ T, StalledFrom κ T c ∧
      ∀ b k, Received κ T c b k → 0 < k → (κ T).Allocated (b + k))
    {c : Cid} {t : Nat} (hcS : ¬ S c) (hu : ∀ op, (κ t).Called c op → ∀ i, op.Uses i → ¬ E i)
    (hrun : ∀ s, t ≤ s → ∃ op, (κ s).Running c op) : False := by
  obtain ⟨K, K0, h0, hgh⟩ := h.ghost_used' hm ho fun t c op hp => Nat.le_of_eq ((hg t).2 c op hp).symm
  have hW := fun t => (hgh t).1.1
  have hP := fun t => (hgh t).1.2.1
  have hl := fun t => (hgh t).1.2.2
  have hU := fun t => (hgh t).2
  -- the maximum capacity stays the same
  have hmax : ∀ s, t ≤ s → (κ s).mem.maxCap = (κ t).mem.maxCap := by
    intro s hs
    induction hs with
    | refl => rfl
    | @step s hs ih =>
      rw [← ih]
      rcases h.next s with he | he
      · rw [he]
      · obtain ⟨op, ho⟩ := hrun s hs
        exact ((hW s).maxCap_le he).2 fun hi => hi c op ho
  -- nobody waits for storage forever
  have hcap : ∀ c T (o : MOrd), (∀ s, T ≤ s → ∃ op, (κ s).Running c op) →
      (∀ s, T ≤ s → Waits D (κ s).mem (K s c) (.capLoad o : Act α)) → False := by
    intro c T o hr hw
    obtain ⟨⟨i, hi⟩, -⟩ := hw T (Nat.le_refl _)
    have hi' : ∀ s, T ≤ s → (K s c).R i ∧ lastVal (κ s).mem.cap < i ∧ i < (κ s).mem.maxCap := by
      intro s hs
      have h1 := ghost_r hl hs hi
      exact ⟨h1, (hw s hs).2 i h1⟩
    obtain ⟨T', hT', hc⟩ := eventually_const (f := fun s => lastVal (κ s).mem.cap) (fun s t => ghost_cap hl) (B := i) _ T rfl
      (fun s hs => Nat.le_of_lt (hi' s hs).2.1)
    obtain ⟨d, hd⟩ := next_owner (hW T') (hP T') (hi' T' hT').1 (hi' T' hT').2.1
    have hdS : ¬ S d := fun hdS => by
      rcases hR d hdS with hno | ⟨T0, hst, hal⟩
      · obtain ⟨op, sz, h1, h2⟩ := (hU T').r d _ hd
        rw [hno T' op h1] at h2
        cases h2
      · have h1 := ghost_r hl (Nat.le_max_right T0 T') hd
        rw [ghost_stalled hl hst (Nat.le_max_left T0 T')] at h1
        obtain ⟨b, k, hrec, hb, hbk⟩ := h.owns_received h0 hW hl h1
        have h2 := (hal b k hrec (by omega)).le
        have h3 := ghost_cap hl (Nat.le_max_left T0 T')
        have h4 : lastVal (κ (max T0 T')).mem.cap = lastVal (κ T').mem.cap := hc _ (Nat.le_max_right T0 T')
        omega
    have hd' : ∀ s, T' ≤ s → (K s d).R (lastVal (κ s).mem.cap) := by
      intro s hs
      have : lastVal (κ s).mem.cap = _ := hc s hs
      rw [this]
      exact ghost_r hl hs hd
    have hdr : ∀ s, T' ≤ s → ∃ op, (κ s).Running d op := by
      intro s hs
      have := hi' s (by omega)
      exact owner_running (hW s) (hP s) (hg s) rfl (hd' s hs) this.1 this.2.1 this.2.2 (hr s (by omega))
    obtain ⟨T2, hT2, hb⟩ := h.forever (hf d hdS) hdr
    obtain ⟨r, a, again, k, -, -, hw'⟩ := blocked_waits (hW T2) (binv (h.reach T2)) (hb T2 (Nat.le_refl _))
    exact owner_not_waiting rfl (hd' T2 hT2) hw'
  -- nobody waits forever for an element outside `E`
  have hlock : ∀ k i c T, t ≤ T → (κ t).mem.maxCap - i = k → ¬ E i → (∀ s, T ≤ s → Locked (κ s).mem i) →
      (∀ s, T ≤ s → (K s c).L i) → False := by
    intro k
    induction k using Nat.strongRecOn with
    | ind k ih =>
      intro i c T hT hk hE hlk hL
      have hcS : ¬ S c := fun hcS => by
        obtain ⟨op, h1, h2⟩ := (hU T).l c i (hL T (Nat.le_refl _))
        exact hE (hS T c op hcS h1 i h2)
      have hr : ∀ s, T ≤ s → ∃ op, (κ s).Running c op := fun s hs => holder_running (hW s) (hP s) (hL s hs)
      obtain ⟨T2, hT2, hb⟩ := h.forever (hf c hcS) hr
      obtain ⟨a, _, _, hw⟩ := h.wait hW hb
      have hw := fun s hs => (hw s hs).2
      cases a with
      | capLoad o => exact hcap c T2 o (fun s hs => hr s (by omega)) hw
      | stCas j e s ok fail =>
        obtain ⟨h1, h2, -, h3⟩ := hw T2 (Nat.le_refl _)
        obtain ⟨hij, hEj⟩ := hn _ _ (h3 i (hL T2 hT2)) hE
        have hjm := alloc_bound (hW T2) h2
        rw [hmax T2 (by omega)] at hjm
        obtain ⟨d, hd⟩ := (hP T2).held j h1
        have hlk' : ∀ s, T2 ≤ s → Locked (κ s).mem j := fun s hs => (hw s hs).1
        exact ih ((κ t).mem.maxCap - j) (by omega) j d T2 (by omega) rfl hEj hlk' (fun s hs => ghost_l hl hs hd hlk')
      | _ => exact hw T2 (Nat.le_refl _)
  obtain ⟨T, hT, hb⟩ := h.forever (hf c hcS) hrun
  obtain ⟨a, again, k, hw'⟩ := h.wait hW hb
  have hw := fun s hs => (hw' s hs).2
  cases a with
  | capLoad o => exact hcap c T o (fun s hs => hrun s (by omega)) hw
  | stCas j e s ok fail =>
    obtain ⟨⟨r, hr, hs⟩, -⟩ := hw' T (Nat.le_refl _)
    obtain ⟨op, q, p, hq, ho', -⟩ := hrun t (Nat.le_refl _)
    obtain ⟨r', hr', ho2⟩ := h.called hT (c := c) (op := op) ⟨q, hq, ho'⟩
    rw [hr] at hr'; cases hr'
    have hE : ¬ E j := hu op ⟨q, hq, ho'⟩ j (ho2 ▸ ((h.reach T).locksIn hr hs).1 j e s ok fail rfl)
    obtain ⟨d, hd⟩ := (hP T).held j (hw T (Nat.le_refl _)).1
    have hlk : ∀ s, T ≤ s → Locked (κ s).mem j := fun s hs => (hw s hs).1
    exact hlock _ j d T hT rfl hE hlk (fun s hs => ghost_l hl hs hd hlk)
  | _ => exact hw T (Nat.le_refl _)

end

end Verif.Weak
