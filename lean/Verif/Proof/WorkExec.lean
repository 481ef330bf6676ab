import Mathlib.Data.Finset.Card
import Mathlib.Data.Set.Finite.Basic
import Mathlib.Data.Nat.Find
import Verif.Proof.Work
import Verif.Proof.Views
import Verif.Proof.Fair
import Verif.Proof.CompareFair

/-!
# The accesses of a call in an execution, for C57
-/

namespace Verif

variable {α β : Type} {m : Mem α} {l : List α} {n : Nat} {κ : Nat → Cfg α β}

/-- A step of the system: a running call stays where it is, or makes an access that is not waiting, or ends. -/
theorem CfgInv.stay_or_go {κ κ' : Cfg α β} (h : CfgInv (.ofList l) κ) (hs : Step κ κ') {c : Cid} {r : Rec α β}
    {p : Prog α (Ret α β)} (hc : κ.calls c = some r) (hr : r.status = .running p) :
    κ'.calls c = some r ∨
    (∃ a again g w' b, p = .step a again g ∧ κ.w.exec c a = some (w', b) ∧ again b = false ∧
      κ'.calls c = some { r with status := .running (g b) } ∧ κ'.w.mem = w'.mem) ∨
    (∃ r' e, κ'.calls c = some r' ∧ r'.op = r.op ∧ r'.status.ended = some e) := by
  rcases h.step_other hs hc hr with hmv | ⟨h1, -⟩
  · obtain ⟨r1, hc1, hcase⟩ := hmv
    rw [hc] at hc1
    cases hc1
    rcases hcase with ⟨a, again, k, w', b, hr1, he, rfl⟩ | ⟨x, hr1, rfl⟩ | ⟨k, hr1, rfl⟩
    · rw [hr] at hr1
      cases hr1
      cases hb : again b with
      | true =>
        left
        refine setStatus_self.trans ?_
        simp only [if_true]
        rw [← hr]
      | false =>
        refine .inr (.inl ⟨a, again, k, w', b, rfl, he, hb, ?_, rfl⟩)
        refine setStatus_self.trans ?_
        simp
    · exact .inr (.inr ⟨_, _, setStatus_self, rfl, rfl⟩)
    · exact .inr (.inr ⟨_, _, setStatus_self, rfl, rfl⟩)
  · exact .inl h1

/-- Call `c` (of function `op`) has at most `N` steps still to make, waiting aside. -/
def Owes (s : Bool) (w M : Nat) (op : Op α β) (κ : Cfg α β) (c : Cid) (N : Nat) : Prop :=
  (κ.calls c = none ∧ op.work w M + 1 ≤ N) ∨
  ∃ r, κ.calls c = some r ∧ r.op = op ∧ ((∃ e, r.status.ended = some e) ∨
    ∃ p N' w', r.status = .running p ∧ N = N' + 1 ∧ w' ≤ κ.w.mem.written ∧ Costs s M p w' N' fun _ _ _ => True)

theorem exec_fits {W W' : World α} {c : Cid} {a : Act α} {b : a.Resp} {w M : Nat} (he : W.exec c a = some (W', b))
    (hw : w ≤ W.mem.written) (hM : W.mem.written ≤ M) (hc : W.mem.cap ≤ M) : Fits w M a b := by
  cases a <;> try exact trivial
  all_goals
    simp only [World.exec, Act.exec, Option.some.injEq, Prod.mk.injEq] at he
    obtain ⟨-, rfl⟩ := he
  · exact ⟨hw, hM⟩
  · exact hc

theorem exec_knows {W W' : World α} {c : Cid} {a : Act α} {b : a.Resp} {w : Nat} (he : W.exec c a = some (W', b))
    (hw : w ≤ W.mem.written) (this : W.mem.written ≤ W'.mem.written) : knows w a ≤ W'.mem.written := by
  cases a <;> try exact Nat.le_trans hw this
  simp only [World.exec, Act.exec, Option.some.injEq, Prod.mk.injEq] at he
  obtain ⟨rfl, -⟩ := he
  exact Nat.max_le.2 ⟨Nat.le_trans hw (Nat.le_max_left _ _), Nat.le_max_right _ _⟩

theorem ended_running {r : Rec α β} {p : Prog α (Ret α β)} {e : Nat × World α} (he : r.status.ended = some e)
    (hr : r.status = .running p) : False := by
  rw [hr] at he; cases he

theorem Cfg.Running.record {κ : Cfg α β} {c : Cid} {op : Op α β} (h : κ.Running c op) :
    ∃ r p, κ.calls c = some r ∧ r.op = op ∧ r.status = .running p := by
  obtain ⟨ct, st, p, hc⟩ := h
  exact ⟨_, _, hc, rfl, rfl⟩

/-- What a call owes after a step of the system. -/
theorem Owes.step {s : Bool} {w M N : Nat} {op : Op α β} {κ κ' : Cfg α β} {c : Cid} (ho : Owes s w M op κ c N)
    (hs : s = true → ¬ op.MayWait) (h : CfgInv (.ofList l) κ) (hst : Step κ κ')
    (hop : ∀ r, κ'.calls c = some r → r.op = op)
    (hw : κ'.calls c ≠ none → w ≤ κ'.w.mem.written) (hM : κ.w.mem.written ≤ M) (hcap : κ.w.mem.cap ≤ M) :
    ((¬ ∃ op, κ.Running c op) ∧ Owes s w M op κ' c N) ∨
    (κ'.calls c = κ.calls c ∧ Owes s w M op κ' c N) ∨ ∃ N', N = N' + 1 ∧ Owes s w M op κ' c N' := by
  rcases ho with ⟨hn, hN⟩ | ⟨r, hc, hrop, ⟨e, he⟩ | ⟨p, N', w', hr, rfl, hw', hp⟩⟩
  · left
    refine ⟨fun ⟨op', hrun⟩ => ?_, ?_⟩
    · obtain ⟨r, p, hc, -⟩ := hrun.record
      rw [hn] at hc; cases hc
    · rcases hc' : κ'.calls c with _ | r'
      · exact .inl ⟨hc', hN⟩
      · obtain ⟨-, -, -, h4⟩ := hst.new_rec hc' hn
        have := hop r' hc'
        refine .inr ⟨r', hc', this, .inr ⟨_, N - 1, w, h4, by omega, hw (by rw [hc']; simp), ?_⟩⟩
        rw [this]
        refine Costs.more ?_ (by omega : op.work w M ≤ N - 1)
        cases s with
        | true => exact costs_prog_strict op (hs rfl)
        | false => exact costs_prog op
  · left
    refine ⟨fun ⟨op', hrun⟩ => ?_, ?_⟩
    · obtain ⟨r', p, hc', -, hr'⟩ := hrun.record
      rw [hc] at hc'; cases hc'
      exact ended_running he hr'
    · obtain ⟨r', h1, h2⟩ := h.step_rec hst hc
      rw [h2.ended e he] at h1
      exact .inr ⟨r, h1, hrop, .inl ⟨e, he⟩⟩
  · have hev := (h.step_evolves hst).written
    rcases h.stay_or_go hst hc hr with h1 | ⟨a, again, g, W, b, rfl, hex, hb, h1, hmem⟩ | ⟨r', e, h1, h2, h3⟩
    · exact .inr (.inl ⟨by rw [h1, hc], .inr ⟨r, h1, hrop, .inr ⟨p, N', w', hr, rfl, Nat.le_trans hw' hev, hp⟩⟩⟩)
    · obtain ⟨-, N2, rfl, hp⟩ := hp
      refine .inr (.inr ⟨N2 + 1, rfl, .inr ⟨_, h1, hrop, .inr ⟨g b, N2, _, rfl, rfl, ?_, hp b ?_ hb⟩⟩⟩)
      · rw [hmem]
        exact exec_knows hex hw' (hmem ▸ hev)
      · exact exec_fits hex hw' hM hcap
    · exact .inr (.inr ⟨N', rfl, .inr ⟨r', h1, by rw [h2, hrop], .inl ⟨e, h3⟩⟩⟩)

theorem Exec.evolves' (h : Exec m l n κ) (hm : InitMem m l) {t : Nat} (ht : t ≤ n) : (κ t).w.mem.cap ≤ (κ n).w.mem.cap :=
  (h.evolves hm ht (Nat.le_refl n)).cap

/-- The facts about an execution that the counting uses. -/
structure Counted (s : Bool) (w : Nat) (op : Op α β) (n : Nat) (κ : Nat → Cfg α β) (c : Cid) : Prop where
  strict : s = true → ¬ op.MayWait
  called : ∀ t, t ≤ n → ∀ r, (κ t).calls c = some r → r.op = op
  known : ∀ t, t ≤ n → (κ t).calls c ≠ none → w ≤ (κ t).w.mem.written

theorem Exec.owes_step (h : Exec m l n κ) (hm : InitMem m l) {s : Bool} {w N : Nat} {op : Op α β} {c : Cid}
    (hC : Counted s w op n κ c) {t : Nat} (ht : t < n) (ho : Owes s w (κ n).w.mem.cap op (κ t) c N) :
    ((¬ ∃ op, (κ t).Running c op) ∧ Owes s w (κ n).w.mem.cap op (κ (t + 1)) c N) ∨
    ((κ (t + 1)).calls c = (κ t).calls c ∧ Owes s w (κ n).w.mem.cap op (κ (t + 1)) c N) ∨
    ∃ N', N = N' + 1 ∧ Owes s w (κ n).w.mem.cap op (κ (t + 1)) c N' := by
  have hI := h.inv hm (Nat.le_of_lt ht)
  have hcap := h.evolves' hm (Nat.le_of_lt ht)
  exact ho.step hC.strict hI (h.next t ht) (hC.called (t + 1) ht) (hC.known (t + 1) ht)
    (Nat.le_trans hI.inv.written_le hcap) hcap

/-- Counting the moments from `t` on. -/
theorem Exec.count_from (h : Exec m l n κ) (hm : InitMem m l) {s : Bool} {w : Nat} {op : Op α β} {c : Cid}
    (hC : Counted s w op n κ c) : ∀ (k t N : Nat), t + k = n → Owes s w (κ n).w.mem.cap op (κ t) c N →
    ∀ ts : Finset Nat, (∀ u ∈ ts, t ≤ u ∧ u < n ∧ Progresses κ c u) → ts.card ≤ N := by
  intro k
  induction k with
  | zero =>
    intro t N htn _ ts hts
    have : ts = ∅ := by
      rw [Finset.eq_empty_iff_forall_notMem]
      intro u hu
      have := hts u hu
      omega
    rw [this]
    exact Nat.zero_le _
  | succ k ih =>
    intro t N htn ho ts hts
    have later : ∀ us : Finset Nat, (∀ u ∈ us, u ∈ ts) → t ∉ us → ∀ u ∈ us, t + 1 ≤ u ∧ u < n ∧ Progresses κ c u := by
      intro us hus htu u hu
      obtain ⟨h1, h2⟩ := hts u (hus u hu)
      have : u ≠ t := fun he => htu (he ▸ hu)
      exact ⟨by omega, h2⟩
    rcases h.owes_step hm hC (by omega : t < n) ho with ⟨hnr, ho'⟩ | ⟨heq, ho'⟩ | ⟨N', rfl, ho'⟩
    · exact ih (t + 1) N (by omega) ho' ts (later ts (fun _ h => h) fun hmem => hnr (hts t hmem).2.2.1)
    · exact ih (t + 1) N (by omega) ho' ts (later ts (fun _ h => h) fun hmem => (hts t hmem).2.2.2 heq)
    · have h1 := ih (t + 1) N' (by omega) ho' (ts.erase t)
        (later _ (fun u hu => Finset.mem_of_mem_erase hu) (Finset.notMem_erase t ts))
      have := Finset.pred_card_le_card_erase (s := ts) (a := t)
      omega

theorem Exec.owes_init (h : Exec m l n κ) {s : Bool} {w M : Nat} (op : Op α β) (c : Cid) :
    Owes s w M op (κ 0) c (op.work w M + 1) := .inl ⟨by rw [h.init]; rfl, Nat.le_refl _⟩

theorem Exec.called_op (h : Exec m l n κ) (hm : InitMem m l) {c : Cid} {op : Op α β} (hc : (κ n).Called c op) {t : Nat}
    (ht : t ≤ n) {r : Rec α β} (hr : (κ t).calls c = some r) : r.op = op := by
  obtain ⟨ct, st, p, hc⟩ := hc
  obtain ⟨r', h1, h2, -⟩ := h.rec_mono hm hr ht (Nat.le_refl n)
  rw [hc] at h1
  cases h1
  exact h2.symm

/-- The number of steps of a call, waiting aside. -/
theorem Exec.count (h : Exec m l n κ) (hm : InitMem m l) {w : Nat} {op : Op α β} {c : Cid} (hc : (κ n).Called c op)
    (hw : w = l.length ∨ ∃ d op' x, (κ n).Before d c ∧ (κ n).Returned d op' x ∧ op'.ReportsLen w x)
    (ts : Finset Nat) (hts : ∀ t ∈ ts, t < n ∧ Progresses κ c t) : ts.card ≤ op.work w (κ n).w.mem.cap + 1 := by
  refine h.count_from hm (s := false) (w := w) ⟨by simp, fun t ht r hr => h.called_op hm hc ht hr, ?_⟩ n 0 _ (by omega)
    (h.owes_init op c) ts fun u hu => ⟨Nat.zero_le _, hts u hu⟩
  intro t ht hne
  rcases hw with rfl | ⟨d, op', x, hb, hret, hrep⟩
  · have h0 : (κ 0).w.mem.written = l.length := by rw [h.init]; exact hm.written
    rw [← h0]
    exact (h.evolves hm (Nat.zero_le t) ht).written
  · obtain ⟨r, hr⟩ := Option.ne_none_iff_exists'.1 hne
    obtain ⟨r', h1, h2, h3, h4, -⟩ := h.rec_mono hm hr ht (Nat.le_refl n)
    have hk := (h.inv hm (Nat.le_refl n)).before_written hb hret hrep h1
    obtain ⟨g1, g2, g3, -⟩ := (h.prefix ht).called_at hm hr
    rw [h4, g3] at hk
    exact Nat.le_trans hk (h.evolves hm (Nat.le_of_lt g1) ht).written

theorem Exec.owes (h : Exec m l n κ) (hm : InitMem m l) {s : Bool} {op : Op α β} {c : Cid} (hC : Counted s 0 op n κ c) :
    ∀ t, t ≤ n → ∃ N, Owes s 0 (κ n).w.mem.cap op (κ t) c N := by
  intro t
  induction t with
  | zero => exact fun _ => ⟨_, h.owes_init op c⟩
  | succ t ih =>
    intro ht
    obtain ⟨N, ho⟩ := ih (by omega)
    rcases h.owes_step hm hC (by omega : t < n) ho with ⟨-, ho'⟩ | ⟨-, ho'⟩ | ⟨N', -, ho'⟩ <;> exact ⟨_, ho'⟩

/-- A function that never waits gets ahead with every step. -/
theorem Exec.moves_progress (h : Exec m l n κ) (hm : InitMem m l) {op : Op α β} {c : Cid} (hc : (κ n).Called c op)
    (hop : ¬ op.MayWait) {t : Nat} (ht : t < n) (hmv : (κ t).Moves c (κ (t + 1))) : Progresses κ c t := by
  obtain ⟨N, ho⟩ := h.owes hm (s := true) (op := op) (c := c)
    ⟨fun _ => hop, fun t ht r hr => h.called_op hm hc ht hr, fun _ _ _ => Nat.zero_le _⟩ t (Nat.le_of_lt ht)
  obtain ⟨r, hr, hcase⟩ := hmv
  have hrun : ∃ p, r.status = .running p := by
    rcases hcase with ⟨a, again, k, w', b, hr1, -⟩ | ⟨x, hr1, -⟩ | ⟨k, hr1, -⟩ <;> exact ⟨_, hr1⟩
  obtain ⟨p, hp⟩ := hrun
  refine ⟨⟨r.op, r.callT, r.start, p, ?_⟩, ?_⟩
  · rw [hr, ← hp]
  · rcases ho with ⟨hn, -⟩ | ⟨r', hr', -, ⟨e, he⟩ | ⟨p', N', w0, hp', -, -, hw⟩⟩
    · rw [hr] at hn; cases hn
    · rw [hr] at hr'; cases hr'
      exact (ended_running he hp).elim
    · rw [hr] at hr'; cases hr'
      rcases hcase with ⟨a, again, k, w', b, hr1, he, heq⟩ | ⟨x, hr1, heq⟩ | ⟨k, hr1, heq⟩
      · rw [hp'] at hr1
        cases hr1
        have hb := hw.1 rfl b
        intro hsame
        have h1 : (κ (t + 1)).calls c = some { r with status := .running (k b) } := by
          rw [heq]
          refine setStatus_self.trans ?_
          simp [hb]
        rw [hr, h1] at hsame
        exact Prog.cont_status hp' (congrArg Rec.status (Option.some.inj hsame))
      · intro hsame
        have h1 := congrArg (fun q : Cfg α β => q.calls c) heq
        have h2 := h1.trans setStatus_self
        rw [hsame, hr] at h2
        have := congrArg Rec.status (Option.some.inj h2)
        rw [hr1] at this; cases this
      · intro hsame
        have h1 := congrArg (fun q : Cfg α β => q.calls c) heq
        have h2 := h1.trans setStatus_self
        rw [hsame, hr] at h2
        have := congrArg Rec.status (Option.some.inj h2)
        rw [hr1] at this; cases this

/-! ## Infinite executions -/

theorem InfExec.finite_from (h : InfExec m l κ) (hm : InitMem m l) {c : Cid} (p : Prog α (Ret α β)) :
    ∀ t r, (κ t).calls c = some r → r.status = .running p → Set.Finite {s | t ≤ s ∧ Progresses κ c s} := by
  classical
  have ended : ∀ t r e, (κ t).calls c = some r → r.status.ended = some e → ∀ s, t ≤ s → ¬ Progresses κ c s := by
    intro t r e hc he s hs hp
    have h1 := h.ended_mono hm hs hc he
    have h2 := h.ended_mono hm (by omega : t ≤ s + 1) hc he
    exact hp.2 (by rw [h1, h2])
  have key : ∀ p : Prog α (Ret α β), (∀ q, (∃ a again g b, p = .step a again g ∧ q = g b) →
      ∀ t r, (κ t).calls c = some r → r.status = .running q → Set.Finite {s | t ≤ s ∧ Progresses κ c s}) →
      ∀ t r, (κ t).calls c = some r → r.status = .running p → Set.Finite {s | t ≤ s ∧ Progresses κ c s} := by
    intro p ih t r hc hr
    by_cases hex : ∃ k, Progresses κ c (t + k)
    · have hlt : ∀ k, k ≤ Nat.find hex → (κ (t + k)).calls c = some r := by
        intro k
        induction k with
        | zero => exact fun _ => hc
        | succ k ihk =>
          intro hk
          have h0 := ihk (by omega)
          have hnp := Nat.find_min hex (by omega : k < Nat.find hex)
          by_contra hne
          refine hnp ⟨⟨r.op, r.callT, r.start, p, by rw [h0, ← hr]⟩, ?_⟩
          rw [h0]
          exact hne
      have hT := Nat.find_spec hex
      have hcT := hlt _ (Nat.le_refl _)
      generalize hk : Nat.find hex = k at *
      have hsub : {s | t ≤ s ∧ Progresses κ c s} ⊆ {s | t + k + 1 ≤ s ∧ Progresses κ c s} ∪ {t + k} := by
        intro s ⟨hs1, hs2⟩
        by_cases hsk : t + k + 1 ≤ s
        · exact .inl ⟨hsk, hs2⟩
        · right
          have : s - t < k ∨ s = t + k := by omega
          rcases this with hl | rfl
          · exfalso
            refine Nat.find_min hex (by omega : s - t < Nat.find hex) ?_
            rw [show t + (s - t) = s by omega]
            exact hs2
          · rfl
      refine Set.Finite.subset (Set.Finite.union ?_ (Set.finite_singleton _)) hsub
      rcases (h.inv hm (t + k)).stay_or_go (h.next (t + k)) hcT hr with h1 | ⟨a, again, g, w', b, rfl, hex', hb, h1, -⟩ | ⟨r', e, h1, h2, h3⟩
      · exact (hT.2 (by rw [h1, hcT])).elim
      · exact ih (g b) ⟨a, again, g, b, rfl, rfl⟩ (t + k + 1) _ h1 rfl
      · refine Set.Finite.subset (Set.finite_empty) ?_
        intro s ⟨hs1, hs2⟩
        exact ended _ r' e h1 h3 s hs1 hs2
    · refine Set.Finite.subset (Set.finite_empty) ?_
      intro s ⟨hs1, hs2⟩
      exact hex ⟨s - t, by rw [show t + (s - t) = s by omega]; exact hs2⟩
  induction p with
  | ret x => exact key _ fun q ⟨a, again, g, b, h1, _⟩ => by cases h1
  | panic x => exact key _ fun q ⟨a, again, g, b, h1, _⟩ => by cases h1
  | step a again g ih =>
    refine key _ fun q ⟨a', again', g', b, h1, h2⟩ => ?_
    cases h1
    subst h2
    exact ih b

/-- Waiting aside, every call makes only finitely many steps. -/
theorem InfExec.finite (h : InfExec m l κ) (hm : InitMem m l) (c : Cid) : Set.Finite {t | Progresses κ c t} := by
  by_cases hex : ∃ t, Progresses κ c t
  · obtain ⟨T, hT⟩ := hex
    obtain ⟨⟨op, hrun⟩, -⟩ := hT
    obtain ⟨r, p, hc, -, hr⟩ := hrun.record
    have h1 := h.finite_from hm p T r hc hr
    refine Set.Finite.subset (h1.union (Set.finite_lt_nat T)) ?_
    intro s hs
    by_cases hsT : T ≤ s
    · exact .inl ⟨hsT, hs⟩
    · exact .inr (show s < T by omega)
  · refine Set.Finite.subset Set.finite_empty ?_
    intro s hs
    exact hex ⟨s, hs⟩

end Verif
