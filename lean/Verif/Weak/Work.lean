import Verif.Weak.Progress
import Verif.Weak.SpecValues
import Verif.Proof.Work
import Mathlib.Data.Finset.Card
import Mathlib.Data.Set.Finite.Basic
import Mathlib.Data.Nat.Find

/-!
# The accesses of a call in a weak-memory execution, for C57

Helper file (no property statements).
-/

namespace Verif.Weak

variable {α β : Type} {m : Mem α} {l : List α} {n : Nat} {D : Mode} {mx : Nat}

/-- Responses under weak memory. -/
theorem exec_fits {a : Act α} {t : Nat} {V V' : View} {μ μ' : WMem α} {b : a.Resp} {K : Cid → Know} {w M : Nat}
    (he : exec a t V μ = .ok V' μ' b) (g : GInv D μ K) (hw : Above μ.written V.written w) (hM : lastVal μ.cap ≤ M) :
    Verif.Fits w M a b := by
  cases a <;> try exact trivial
  · simp only [exec] at he
    split at he
    · rename_i r hr
      split at he
      · rename_i hle
        cases he
        refine ⟨hw.2 t r hle hr, Nat.le_trans ?_ hM⟩
        change r.val ≤ _
        rcases hv : r.val with _ | k
        · exact Nat.zero_le _
        · exact (g.written_msg t r hr k (by omega)).2.2.1
      · cases he
    · cases he
  · simp only [exec] at he
    split at he
    · rename_i r hr
      split at he
      · cases he
        exact Nat.le_trans (g.cap_mono.last hr) hM
      · cases he
    · cases he

/-- What others can do to the length. -/
theorem exec_written {a : Act α} {t : Nat} {V V' : View} {μ μ' : WMem α} {b : a.Resp} (he : exec a t V μ = .ok V' μ' b) :
    (μ'.written = μ.written ∨ ∃ r, μ'.written = μ.written ++ [r] ∧ lastVal μ.written ≤ r.val) ∧ V.written ≤ V'.written := by
  have hrd : ∀ {γ : Type} (o : MOrd) (r : Msg γ), V.written ≤ (V.read o r).written := fun o r => by
    unfold View.read; split
    · exact Nat.le_max_left _ _
    · exact Nat.le_refl _
  cases a <;> simp only [exec] at he
  case resFetchAdd n o =>
    split at he
    · injection he with h1 h2; subst h1 h2; exact ⟨.inl rfl, hrd _ _⟩
    · cases he
    · cases he
  case resLoad o =>
    split at he
    · split at he
      · injection he with h1 h2; subst h1 h2; exact ⟨.inl rfl, hrd _ _⟩
      · cases he
    · cases he
  case writtenLoad o =>
    split at he
    · split at he
      · injection he with h1 h2; subst h1 h2; exact ⟨.inl rfl, Nat.le_trans (hrd _ _) (Nat.le_max_left _ _)⟩
      · cases he
    · cases he
  case writtenFetchMax n o =>
    split at he
    · next r hp hr =>
      injection he with h1 h2
      obtain ⟨-, hlen⟩ := place_last hp
      have hlast := lastVal_of hlen hr
      subst h1 h2
      exact ⟨.inr ⟨_, rfl, by rw [hlast]; exact Nat.le_max_left _ _⟩, Nat.le_trans (hrd _ _) (Nat.le_max_left _ _)⟩
    · cases he
    · cases he
  case capLoad o =>
    split at he
    · split at he
      · injection he with h1 h2; subst h1 h2; exact ⟨.inl rfl, hrd _ _⟩
      · cases he
    · cases he
  case maxCapLoad => injection he with h1 h2; subst h1 h2; exact ⟨.inl rfl, Nat.le_refl _⟩
  case growAlloc n =>
    split at he
    · injection he with h1 h2; subst h1 h2; exact ⟨.inl rfl, Nat.le_refl _⟩
    · cases he
  case growPublish o =>
    split at he
    · split at he
      · injection he with h1 h2; subst h1 h2; exact ⟨.inl rfl, Nat.le_refl _⟩
      · cases he
      · cases he
    · cases he
  case stLoad i o =>
    split at he
    · split at he
      · split at he
        · injection he with h1 h2; subst h1 h2; exact ⟨.inl rfl, hrd _ _⟩
        · cases he
      · cases he
    · cases he
  case stCas i e n ok fail =>
    split at he
    · split at he
      · split at he
        · split at he
          · injection he with h1 h2; subst h1 h2; exact ⟨.inl rfl, hrd _ _⟩
          · cases he
          · cases he
        · split at he
          · injection he with h1 h2; subst h1 h2; exact ⟨.inl rfl, hrd _ _⟩
          · cases he
      · cases he
    · cases he
  case stStore i st o =>
    split at he
    · split at he
      · injection he with h1 h2; subst h1 h2; exact ⟨.inl rfl, Nat.le_refl _⟩
      · cases he
      · cases he
    · cases he
  case valRead i =>
    split at he
    · split at he
      · split at he
        · injection he with h1 h2; subst h1 h2; exact ⟨.inl rfl, Nat.le_refl _⟩
        · cases he
      · cases he
    · cases he
  case valWrite i v =>
    split at he
    · split at he
      · injection he with h1 h2; subst h1 h2; exact ⟨.inl rfl, Nat.le_refl _⟩
      · cases he
    · cases he
  case valSwap i j =>
    split at he
    · split at he
      · cases he
      · split at he
        · split at he
          · injection he with h1 h2; subst h1 h2; exact ⟨.inl rfl, Nat.le_refl _⟩
          · cases he
        · cases he
    · cases he

theorem exec_above {a : Act α} {t : Nat} {V V' : View} {μ μ' : WMem α} {b : a.Resp} {v w : Nat} (he : exec a t V μ = .ok V' μ' b)
    (h : Above μ.written v w) : Above μ'.written v w := by
  rcases (exec_written he).1 with h1 | ⟨r, h1, h2⟩
  · rw [h1]; exact h
  · rw [h1]; exact h.append h2

theorem exec_knows {a : Act α} {t : Nat} {V V' : View} {μ μ' : WMem α} {b : a.Resp} {w : Nat} (he : exec a t V μ = .ok V' μ' b)
    (h : Above μ.written V.written w) : Above μ'.written V'.written (knows w a) := by
  have h1 : Above μ'.written V'.written w := (exec_above he h).mono (exec_written he).2
  cases a <;> try exact h1
  case writtenFetchMax n o =>
    refine h1.max ?_
    simp only [exec] at he
    split at he
    · next r hp hr =>
      injection he with h1 h2
      obtain ⟨-, hlen⟩ := place_last hp
      subst h1 h2
      refine ⟨by rw [lastVal_append]; exact Nat.le_max_right _ _, fun s q hs hq => ?_⟩
      have hs' : μ.written.length ≤ s := by
        rw [← hlen]
        exact Nat.le_trans (Nat.le_max_right _ _) hs
      rw [List.getElem?_append_right hs'] at hq
      rcases hk : s - μ.written.length with _ | k
      · rw [hk] at hq
        simp only [List.getElem?_cons_zero, Option.some.injEq] at hq
        subst hq
        exact Nat.le_max_right _ _
      · rw [hk] at hq
        simp at hq
    · cases he
    · cases he

section step

variable {κ κ' : Cfg α β}

/-- A step of the system: a call stays where it is, or makes an access that is not waiting, or ends. -/
theorem Step.stay_or_go (hs : Step κ κ') (hn : ∀ d, κ.next ≤ d → κ.calls d = none) {c : Cid} {r : Rec α β}
    (hc : κ.calls c = some r) :
    ∃ r', κ'.calls c = some r' ∧ r'.op = r.op ∧ r'.hb = r.hb ∧ (r'.status = r.status ∨
      (∃ a again g t V' μ b, r.status = .running (.step a again g) ∧ exec a t r.view κ.mem = .ok V' μ b ∧ again b = false ∧
        r'.status = .running (g b) ∧ κ'.mem = μ ∧ r'.view = V') ∨
      ((∃ p, r.status = .running p) ∧ ((∃ x, r'.status = .done x) ∨ ∃ k, r'.status = .panicked k))) := by
  have other : ∀ {d q}, c ≠ d → upd κ.calls d q c = some r := by
    intro d q hd
    rw [upd_apply, if_neg hd]; exact hc
  cases hs with
  | call op H V hH hn' hp =>
    refine ⟨r, other ?_, rfl, rfl, .inl rfl⟩
    intro he; rw [he, hn _ (Nat.le_refl _)] at hc; cases hc
  | act d r' a again k t V μ b hd hr he =>
    rcases Decidable.em (c = d) with h | h
    · subst h
      rw [hc] at hd; injection hd with hd; subst hd
      refine ⟨_, upd_same _ _ _, rfl, rfl, ?_⟩
      cases hb : again b with
      | true => left; simp [hr]
      | false =>
        refine .inr (.inl ⟨a, again, k, t, V, μ, b, hr, he, hb, ?_, rfl, rfl⟩)
        simp
    · exact ⟨r, other h, rfl, rfl, .inl rfl⟩
  | bad d r' a again k t x hd hr he => exact ⟨r, hc, rfl, rfl, .inl rfl⟩
  | ret d r' x hd hr =>
    rcases Decidable.em (c = d) with h | h
    · subst h
      rw [hc] at hd; injection hd with hd; subst hd
      exact ⟨_, upd_same _ _ _, rfl, rfl, .inr (.inr ⟨⟨_, hr⟩, .inl ⟨x, rfl⟩⟩)⟩
    · exact ⟨r, other h, rfl, rfl, .inl rfl⟩
  | panic d r' k hd hr =>
    rcases Decidable.em (c = d) with h | h
    · subst h
      rw [hc] at hd; injection hd with hd; subst hd
      exact ⟨_, upd_same _ _ _, rfl, rfl, .inr (.inr ⟨⟨_, hr⟩, .inr ⟨k, rfl⟩⟩)⟩
    · exact ⟨r, other h, rfl, rfl, .inl rfl⟩
  | reserveMax q hi => exact ⟨r, hc, rfl, rfl, .inl rfl⟩

/-- What a call knows of the length it keeps knowing. -/
theorem Step.above (hs : Step κ κ') (hn : ∀ d, κ.next ≤ d → κ.calls d = none) {c : Cid} {r r' : Rec α β} {w : Nat}
    (hc : κ.calls c = some r) (hc' : κ'.calls c = some r') (h : Above κ.mem.written r.view.written w) :
    Above κ'.mem.written r'.view.written w := by
  have other : ∀ {d q}, c ≠ d → upd κ.calls d q c = some r := by
    intro d q hd
    rw [upd_apply, if_neg hd]; exact hc
  cases hs with
  | call op H V hH hn' hp =>
    have hne : c ≠ κ.next := by
      intro he; rw [he, hn _ (Nat.le_refl _)] at hc; cases hc
    have := (other hne).symm.trans hc'
    cases this
    exact h
  | act d r1 a again k t V μ b hd hr he =>
    rcases Decidable.em (c = d) with hcd | hcd
    · subst hcd
      rw [hc] at hd; injection hd with hd; subst hd
      have := (upd_same _ _ _).symm.trans hc'
      cases this
      exact (exec_above he h).mono (exec_written he).2
    · have := (other hcd).symm.trans hc'
      cases this
      exact exec_above he h
  | bad d r1 a again k t x hd hr he =>
    have := hc.symm.trans hc'
    cases this
    exact h
  | ret d r1 x hd hr =>
    rcases Decidable.em (c = d) with hcd | hcd
    · subst hcd
      rw [hc] at hd; injection hd with hd; subst hd
      have := (upd_same _ _ _).symm.trans hc'
      cases this
      exact h
    · have := (other hcd).symm.trans hc'
      cases this
      exact h
  | panic d r1 k hd hr =>
    rcases Decidable.em (c = d) with hcd | hcd
    · subst hcd
      rw [hc] at hd; injection hd with hd; subst hd
      have := (upd_same _ _ _).symm.trans hc'
      cases this
      exact h
    · have := (other hcd).symm.trans hc'
      cases this
      exact h
  | reserveMax q hi =>
    have := hc.symm.trans hc'
    cases this
    exact h

theorem Step.new_rec (hs : Step κ κ') {c : Cid} {r' : Rec α β} (hc' : κ'.calls c = some r') (hc : κ.calls c = none) :
    r'.status = .running r'.op.prog := by
  have key : ∀ {c1 : Cid} {r1 q : Rec α β}, κ.calls c1 = some r1 → upd κ.calls c1 (some q) c = some r' → False := by
    intro c1 r1 q h1 h2
    rw [upd_apply] at h2
    split at h2
    · rename_i hcc; subst hcc; rw [hc] at h1; cases h1
    · rw [hc] at h2; cases h2
  cases hs with
  | call op H V hH hn' hp =>
    simp only [upd_apply] at hc'
    split at hc'
    · cases hc'; rfl
    · rw [hc] at hc'; cases hc'
  | act d r1 a again k t V μ b hd hr he => exact (key hd hc').elim
  | bad d r1 a again k t x hd hr he => rw [hc] at hc'; cases hc'
  | ret d r1 x hd hr => exact (key hd hc').elim
  | panic d r1 k hd hr => exact (key hd hc').elim
  | reserveMax q hi => rw [hc] at hc'; cases hc'

/-- Call `c` (of function `op`) has at most `N` steps still to make, waiting aside. -/
def Owes (s : Bool) (w M : Nat) (op : Op α β) (κ : Cfg α β) (c : Cid) (N : Nat) : Prop :=
  (κ.calls c = none ∧ op.work w M + 1 ≤ N) ∨
  ∃ r, κ.calls c = some r ∧ r.op = op ∧ ((¬ ∃ p, r.status = .running p) ∨
    ∃ p N' w', r.status = .running p ∧ N = N' + 1 ∧ Above κ.mem.written r.view.written w' ∧ Costs s M p w' N' fun _ _ _ => True)

theorem Owes.step {s : Bool} {w M N : Nat} {op : Op α β} {K : Cid → Know} {c : Cid} (ho : Owes s w M op κ c N)
    (hs : s = true → ¬ op.MayWait) (g : GInv D κ.mem K) (hst : Step κ κ') (hn : ∀ d, κ.next ≤ d → κ.calls d = none)
    (hop : ∀ r, κ'.calls c = some r → r.op = op)
    (hw : ∀ r, κ'.calls c = some r → Above κ'.mem.written r.view.written w) (hM : lastVal κ.mem.cap ≤ M) :
    ((¬ κ.Advances c κ') ∧ Owes s w M op κ' c N) ∨ ∃ N', N = N' + 1 ∧ Owes s w M op κ' c N' := by
  rcases ho with ⟨hnc, hN⟩ | ⟨r, hc, hrop, hnr | ⟨p, N', w', hr, rfl, hw', hp⟩⟩
  · left
    refine ⟨fun ⟨⟨r, hr, _⟩, _⟩ => (by rw [hnc] at hr; cases hr), ?_⟩
    rcases hc' : κ'.calls c with _ | r'
    · exact .inl ⟨hc', hN⟩
    · have h4 := hst.new_rec hc' hnc
      have := hop r' hc'
      refine .inr ⟨r', hc', this, .inr ⟨_, N - 1, w, h4, by omega, hw r' hc', ?_⟩⟩
      rw [this]
      refine Costs.more ?_ (by omega : op.work w M ≤ N - 1)
      cases s with
      | true => exact costs_prog_strict op (hs rfl)
      | false => exact costs_prog op
  · left
    refine ⟨fun ⟨⟨r', hr', hcase⟩, _⟩ => ?_, ?_⟩
    · rw [hc] at hr'; cases hr'
      rcases hcase with ⟨a, again, k, t, V, μ, b, h1, -⟩ | ⟨x, h1, -⟩ | ⟨k, h1, -⟩ <;> exact hnr ⟨_, h1⟩
    · obtain ⟨r', h1, h2, -, h3 | ⟨a, again, k, t, V, μ, b, h3, -⟩ | ⟨h3, -⟩⟩ := hst.stay_or_go hn hc
      · exact .inr ⟨r', h1, by rw [h2, hrop], .inl (by rw [h3]; exact hnr)⟩
      · exact (hnr ⟨_, h3⟩).elim
      · exact (hnr h3).elim
  · obtain ⟨r', h1, h2, -, h3 | ⟨a, again, k, t, V, μ, b, h3, hex, hb, h4, hmem, hview⟩ | ⟨-, h3⟩⟩ := hst.stay_or_go hn hc
    · left
      refine ⟨fun ⟨_, hne⟩ => hne ?_, .inr ⟨r', h1, by rw [h2, hrop], .inr ⟨p, N', w', by rw [h3, hr], rfl, hst.above hn hc h1 hw', hp⟩⟩⟩
      rw [Cfg.at_some h1, Cfg.at_some hc, h3]
    · rw [hr] at h3
      cases h3
      obtain ⟨-, N2, rfl, hp⟩ := hp
      refine .inr ⟨N2 + 1, rfl, .inr ⟨r', h1, by rw [h2, hrop], .inr ⟨k b, N2, _, h4, rfl, ?_, hp b (exec_fits hex g hw' hM) hb⟩⟩⟩
      rw [hmem, hview]
      exact exec_knows hex hw'
    · refine .inr ⟨N', rfl, .inr ⟨r', h1, by rw [h2, hrop], .inl ?_⟩⟩
      rintro ⟨q, hq⟩
      rcases h3 with ⟨x, h3⟩ | ⟨x, h3⟩ <;> rw [h3] at hq <;> cases hq

end step

section exec

variable {κ : Nat → Cfg α β}

theorem InfExec.stay_or_go (h : InfExec m κ) {t : Nat} {c : Cid} {r : Rec α β} (hc : (κ t).calls c = some r) :
    ∃ r', (κ (t + 1)).calls c = some r' ∧ r'.op = r.op ∧ r'.hb = r.hb ∧ (r'.status = r.status ∨
      (∃ a again g t' V' μ b, r.status = .running (.step a again g) ∧ exec a t' r.view (κ t).mem = .ok V' μ b ∧ again b = false ∧
        r'.status = .running (g b) ∧ (κ (t + 1)).mem = μ ∧ r'.view = V') ∨
      ((∃ p, r.status = .running p) ∧ ((∃ x, r'.status = .done x) ∨ ∃ k, r'.status = .panicked k))) := by
  rcases h.next t with hs | hs
  · rw [hs]; exact ⟨r, hc, rfl, rfl, .inl rfl⟩
  · exact hs.stay_or_go (h.reach t).new hc

/-- Record of a call at an earlier and at a later moment. -/
theorem InfExec.record (h : InfExec m κ) {t t' : Nat} (ht : t ≤ t') {c : Cid} {r : Rec α β} (hc : (κ t).calls c = some r) :
    ∃ r', (κ t').calls c = some r' ∧ r'.op = r.op ∧ r'.hb = r.hb ∧ (r.status = r'.status ∨ ∃ p, r.status = .running p) := by
  induction ht with
  | refl => exact ⟨r, hc, rfl, rfl, .inl rfl⟩
  | step _ ih =>
    obtain ⟨r1, h1, h2, h3, h4⟩ := ih
    obtain ⟨r2, g1, g2, g3, g4⟩ := h.stay_or_go h1
    refine ⟨r2, g1, g2.trans h2, g3.trans h3, ?_⟩
    rcases h4 with h4 | h4
    · rcases g4 with g4 | ⟨a, again, k, t, V, μ, b, g4, -⟩ | ⟨⟨p, g4⟩, -⟩
      · exact .inl (h4.trans g4.symm)
      · exact .inr ⟨_, h4.trans g4⟩
      · exact .inr ⟨_, h4.trans g4⟩
    · exact .inr h4

/-- Happens-before between calls is settled when the later one is made. -/
theorem InfExec.hb_back (h : InfExec m κ) {K K0 : Cid → Know} {t t' : Nat} (ht : t ≤ t')
    (hW : WInv D mx n (κ t) K K0) {d c : Cid} (hb : (κ t').HB d c) : (κ t).calls c ≠ none → (κ t).HB d c := by
  induction hb with
  | one hr hd =>
    intro hne
    obtain ⟨r, hc⟩ := Option.ne_none_iff_exists'.1 hne
    obtain ⟨r', h1, -, h2, -⟩ := h.record ht hc
    rw [hr] at h1; cases h1
    exact .one hc (h2 ▸ hd)
  | trans _ _ ih1 ih2 =>
    intro hne
    have h2 := ih2 hne
    obtain ⟨⟨r, hr, -⟩, -⟩ := hW.hb_le h2
    exact .trans (ih1 (by rw [hr]; simp)) h2

/-- A call cannot see a smaller length than those known to it. -/
theorem InfExec.knows (h : InfExec m κ) {K K0 : Cid → Know} {t t' : Nat} (ht : t ≤ t')
    (hW : WInv D mx l.length (κ t) K K0) {c : Cid} {w : Nat} (hk : (κ t').KnowsLen l c w) {r : Rec α β}
    (hc : (κ t).calls c = some r) : Above (κ t).mem.written r.view.written w := by
  have key : w ≤ (K c).wn := by
    rcases hk with rfl | ⟨d, op, x, hb, hret, hrep⟩
    · exact Nat.le_trans hW.zwn (Nat.le_trans (hW.base c r hc).wn (hW.now c r hc).wn)
    · have hb' := h.hb_back ht hW hb (by rw [hc]; simp)
      obtain ⟨⟨q, hq, hover⟩, hle⟩ := hW.hb_le hb'
      obtain ⟨q', h1, h2, -, h3⟩ := h.record ht hq
      obtain ⟨q2, g1, g2, g3⟩ := hret
      rw [h1] at g1; cases g1
      have hdone : (κ t).Returned d op x := by
        refine ⟨q, hq, h2.symm.trans g2, ?_⟩
        rcases h3 with h3 | ⟨p, h3⟩
        · exact h3.trans g3
        · rcases hover with ⟨y, hy⟩ | ⟨y, hy⟩ <;> rw [h3] at hy <;> cases hy
      exact Nat.le_trans ((hW.done hdone).len w hrep).2.1 (Nat.le_trans hle.wn (hW.now c r hc).wn)
  have := (hW.k c).wn
  rw [Cfg.viewOf_some hc] at this
  exact ⟨Nat.le_trans key this.1, fun s q hs hq => Nat.le_trans key (this.2 s q hs hq)⟩

/-- What is used about an execution. -/
structure Counted (D : Mode) (m : Mem α) (l : List α) (s : Bool) (w M : Nat) (op : Op α β) (n : Nat) (κ : Nat → Cfg α β) (c : Cid) : Prop where
  inf : InfExec m κ
  inv : ∀ t, ∃ K K0, WInv D 0 l.length (κ t) K K0
  cap : ∀ t, t ≤ n → lastVal (κ t).mem.cap ≤ M
  strict : s = true → ¬ op.MayWait
  called : (κ n).Called c op
  known : (κ n).KnowsLen l c w

variable {s : Bool} {w M : Nat} {op : Op α β} {c : Cid}

theorem Counted.step (h : Counted D m l s w M op n κ c) {t N : Nat} (ht : t < n) (ho : Owes s w M op (κ t) c N) :
    ((¬ (κ t).Advances c (κ (t + 1))) ∧ Owes s w M op (κ (t + 1)) c N) ∨ ∃ N', N = N' + 1 ∧ Owes s w M op (κ (t + 1)) c N' := by
  rcases h.inf.next t with hs | hs
  · left
    refine ⟨fun ⟨_, hne⟩ => hne (by rw [hs]), by rw [hs]; exact ho⟩
  · obtain ⟨K, K0, hW⟩ := h.inv t
    obtain ⟨K', K0', hW'⟩ := h.inv (t + 1)
    refine ho.step h.strict hW.g hs (h.inf.reach t).new ?_ (fun r hr => h.inf.knows ht hW' h.known hr)
      (h.cap t (Nat.le_of_lt ht))
    intro r hr
    obtain ⟨r', h1, h2, -⟩ := h.inf.record (by omega : t + 1 ≤ n) hr
    obtain ⟨r2, g1, g2⟩ := h.called
    rw [h1] at g1; cases g1
    exact h2.symm.trans g2

theorem Counted.from (h : Counted D m l s w M op n κ c) : ∀ (k t N : Nat), t + k = n → Owes s w M op (κ t) c N →
    ∀ ts : Finset Nat, (∀ u ∈ ts, t ≤ u ∧ u < n ∧ (κ u).Advances c (κ (u + 1))) → ts.card ≤ N := by
  intro k
  induction k with
  | zero =>
    intro t N htn _ ts hts
    have : ts = ∅ := by
      rw [Finset.eq_empty_iff_forall_notMem]
      intro u hu
      have := hts u hu
      omega
    rw [this]
    exact Nat.zero_le _
  | succ k ih =>
    intro t N htn ho ts hts
    have later : ∀ us : Finset Nat, (∀ u ∈ us, u ∈ ts) → t ∉ us → ∀ u ∈ us, t + 1 ≤ u ∧ u < n ∧ (κ u).Advances c (κ (u + 1)) := by
      intro us hus htu u hu
      obtain ⟨h1, h2⟩ := hts u (hus u hu)
      have : u ≠ t := fun he => htu (he ▸ hu)
      exact ⟨by omega, h2⟩
    rcases h.step (by omega : t < n) ho with ⟨hna, ho'⟩ | ⟨N', rfl, ho'⟩
    · exact ih (t + 1) N (by omega) ho' ts (later ts (fun _ h => h) fun hmem => hna (hts t hmem).2.2)
    · have h1 := ih (t + 1) N' (by omega) ho' (ts.erase t)
        (later _ (fun u hu => Finset.mem_of_mem_erase hu) (Finset.notMem_erase t ts))
      have := Finset.pred_card_le_card_erase (s := ts) (a := t)
      omega

theorem Counted.zero (h : Counted D m l s w M op n κ c) : Owes s w M op (κ 0) c (op.work w M + 1) :=
  .inl ⟨by rw [h.inf.init]; rfl, Nat.le_refl _⟩

theorem Counted.owes (h : Counted D m l s w M op n κ c) : ∀ t, t ≤ n → ∃ N, Owes s w M op (κ t) c N := by
  intro t
  induction t with
  | zero => exact fun _ => ⟨_, h.zero⟩
  | succ t ih =>
    intro ht
    obtain ⟨N, ho⟩ := ih (by omega)
    rcases h.step (by omega : t < n) ho with ⟨-, ho'⟩ | ⟨N', -, ho'⟩ <;> exact ⟨_, ho'⟩

/-- A function that never waits gets ahead with every step. -/
theorem Counted.moves (h : Counted D m l true w M op n κ c) {t : Nat} (ht : t < n) (hmv : (κ t).Moves c (κ (t + 1))) :
    (κ t).Advances c (κ (t + 1)) := by
  obtain ⟨N, ho⟩ := h.owes t (Nat.le_of_lt ht)
  refine ⟨hmv, ?_⟩
  obtain ⟨r, hr, hcase⟩ := hmv
  rcases ho with ⟨hn, -⟩ | ⟨r', hr', -, hnr | ⟨p', N', w0, hp', -, -, hw⟩⟩
  · rw [hr] at hn; cases hn
  · rw [hr] at hr'; cases hr'
    rcases hcase with ⟨a, again, k, t, V, μ, b, h1, -⟩ | ⟨x, h1, -⟩ | ⟨k, h1, -⟩ <;> exact (hnr ⟨_, h1⟩).elim
  · rw [hr] at hr'; cases hr'
    rw [Cfg.at_some hr]
    rcases hcase with ⟨a, again, k, t', V, μ, b, hr1, he, heq⟩ | ⟨x, hr1, heq⟩ | ⟨k, hr1, heq⟩
    · rw [hp'] at hr1
      cases hr1
      have hb := hw.1 rfl b
      rw [heq]
      show Option.map Rec.status (upd _ c _ c) ≠ _
      rw [upd_same, hp']
      simp only [Option.map_some, hb, ne_eq, Option.some.injEq, Status.running.injEq, Bool.false_eq_true, if_false]
      intro hsame
      exact Prog.cont_ne _ a again k b rfl hsame
    · rw [heq, hr1]
      show Option.map Rec.status (upd _ c _ c) ≠ _
      rw [upd_same]
      simp
    · rw [heq, hr1]
      show Option.map Rec.status (upd _ c _ c) ≠ _
      rw [upd_same]
      simp

/-! ## infinite executions -/

theorem InfExec.finite_from (h : InfExec m κ) (c : Cid) (p : Prog α (Ret α β)) :
    ∀ t, (κ t).at' c = some (.running p) → Set.Finite {s | t ≤ s ∧ (κ s).Advances c (κ (s + 1))} := by
  classical
  induction p using rest_wf.induction with
  | _ p ih =>
    intro t hp
    by_cases hex : ∃ k, (κ (t + k)).Advances c (κ (t + k + 1))
    · have hlt : ∀ k, k ≤ Nat.find hex → (κ (t + k)).at' c = some (.running p) := by
        intro k
        induction k with
        | zero => exact fun _ => hp
        | succ k ihk =>
          intro hk
          have h0 := ihk (by omega)
          have hnp := Nat.find_min hex (by omega : k < Nat.find hex)
          rcases h.next (t + k) with hs | hs
          · show (κ (t + k + 1)).at' c = _
            rw [hs]; exact h0
          · obtain ⟨r, hr⟩ : ∃ r, (κ (t + k)).calls c = some r := by
              unfold Cfg.at' at h0
              rcases hr : (κ (t + k)).calls c with _ | r
              · rw [hr] at h0; cases h0
              · exact ⟨r, rfl⟩
            rcases hs.changed (h.reach (t + k)).new hr with h1 | h1
            · show (κ (t + k + 1)).at' c = _
              rw [h1]; exact h0
            · by_contra hne
              exact hnp ⟨h1, fun he => hne (he.trans h0)⟩
      have hT := Nat.find_spec hex
      have hmin := fun j (hj : j < Nat.find hex) => Nat.find_min hex hj
      have hcT := hlt _ (Nat.le_refl _)
      generalize Nat.find hex = k at hT hcT hmin
      have hsub : {s | t ≤ s ∧ (κ s).Advances c (κ (s + 1))} ⊆ {s | t + k + 1 ≤ s ∧ (κ s).Advances c (κ (s + 1))} ∪ {t + k} := by
        intro s ⟨hs1, hs2⟩
        by_cases hsk : t + k + 1 ≤ s
        · exact .inl ⟨hsk, hs2⟩
        · right
          have : s - t < k ∨ s = t + k := by omega
          rcases this with hl | rfl
          · exfalso
            refine hmin (s - t) hl ?_
            rw [show t + (s - t) = s by omega]
            exact hs2
          · rfl
      refine Set.Finite.subset (Set.Finite.union ?_ (Set.finite_singleton _)) hsub
      obtain ⟨r, hr⟩ : ∃ r, (κ (t + k)).calls c = some r := by
        unfold Cfg.at' at hcT
        rcases hr : (κ (t + k)).calls c with _ | r
        · rw [hr] at hcT; cases hcT
        · exact ⟨r, rfl⟩
      have hst : r.status = .running p := by
        rw [Cfg.at_some hr] at hcT; injection hcT
      obtain ⟨r', h1, -, -, h2 | ⟨a, again, g, t', V, μ, b, h2, -, -, h3, -⟩ | ⟨-, h3⟩⟩ := h.stay_or_go hr
      · exact (hT.2 (by rw [Cfg.at_some h1, Cfg.at_some hr, h2])).elim
      · rw [hst] at h2
        cases h2
        exact ih (g b) ⟨a, again, g, b, rfl, rfl⟩ (t + k + 1) (by rw [Cfg.at_some h1, h3])
      · refine Set.Finite.subset Set.finite_empty ?_
        intro s ⟨hs1, hmv, _⟩
        obtain ⟨q, hq, hcase⟩ := hmv
        obtain ⟨q', g1, -, -, g2⟩ := h.record hs1 h1
        rw [hq] at g1; cases g1
        have hrun : ∃ p, q.status = .running p := by
          rcases hcase with ⟨a, again, k, t, V, μ, b, h1, -⟩ | ⟨x, h1, -⟩ | ⟨k, h1, -⟩ <;> exact ⟨_, h1⟩
        obtain ⟨p2, hp2⟩ := hrun
        rcases g2 with g2 | ⟨p3, g2⟩
        · rcases h3 with ⟨x, h3⟩ | ⟨x, h3⟩ <;> rw [h3, hp2] at g2 <;> cases g2
        · rcases h3 with ⟨x, h3⟩ | ⟨x, h3⟩ <;> rw [h3] at g2 <;> cases g2
    · refine Set.Finite.subset Set.finite_empty ?_
      intro s ⟨hs1, hs2⟩
      refine hex ⟨s - t, ?_⟩
      rw [show t + (s - t) = s by omega]; exact hs2

/-- Waiting aside, every call makes only finitely many steps. -/
theorem InfExec.finite (h : InfExec m κ) (c : Cid) : Set.Finite {t | (κ t).Advances c (κ (t + 1))} := by
  by_cases hex : ∃ t, (κ t).Advances c (κ (t + 1))
  · obtain ⟨T, ⟨r, hr, hcase⟩, -⟩ := hex
    have hrun : ∃ p, r.status = .running p := by
      rcases hcase with ⟨a, again, k, t, V, μ, b, h1, -⟩ | ⟨x, h1, -⟩ | ⟨k, h1, -⟩ <;> exact ⟨_, h1⟩
    obtain ⟨p, hp⟩ := hrun
    have h1 := h.finite_from c p T (by rw [Cfg.at_some hr, hp])
    refine Set.Finite.subset (h1.union (Set.finite_lt_nat T)) ?_
    intro s hs
    by_cases hsT : T ≤ s
    · exact .inl ⟨hsT, hs⟩
    · exact .inr (show s < T by omega)
  · refine Set.Finite.subset Set.finite_empty ?_
    intro s hs
    exact hex ⟨s, hs⟩

end exec

end Verif.Weak
