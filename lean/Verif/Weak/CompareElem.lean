import Verif.Weak.SpecCompare
import Verif.Proof.CompareElem
import Verif.Props.Weak
import Verif.Weak.Taken
import Verif.Props.WeakValues

/-!
# The stages of an element call under weak memory, for C60

Helper file (no property statements).
-/

namespace Verif

variable {α ρ ρ' : Type}

/-- Whatever the responses are: if the program returns, then `Q` holds of the result. -/
def Prog.Only (Q : ρ → Prop) : Prog α ρ → Prop
  | .ret x => Q x
  | .panic _ => True
  | .step _ _ k => ∀ b, (k b).Only Q

theorem Prog.Only.bind {Q : ρ' → Prop} {f : ρ → Prog α ρ'} (h : ∀ x, (f x).Only Q) : ∀ p : Prog α ρ, (p.bind f).Only Q
  | .ret x => h x
  | .panic _ => trivial
  | .step _ _ k => fun b => Prog.Only.bind h (k b)

namespace Weak

variable {β : Type} {m : Mem α} {l : List α} {κ κ' : Cfg α β} {c : Cid} {e : Nat}

/-! ## Steps -/

theorem Step.next_le (h : Step κ κ') : κ.next ≤ κ'.next := by
  cases h <;> first | exact Nat.le_refl _ | exact Nat.le_succ _

theorem Reach.zero (h : Reach m κ) : κ.calls 0 = none ∧ 1 ≤ κ.next := by
  induction h with
  | init => exact ⟨rfl, Nat.le_refl _⟩
  | @step κ κ' _ hs ih =>
    refine ⟨?_, Nat.le_trans ih.2 hs.next_le⟩
    have key : ∀ {c : Cid} {r : Rec α β} {x}, κ.calls c = some r → upd κ.calls c x 0 = none := by
      intro c r x hc
      rw [upd_apply]
      split
      · next he => subst he; rw [ih.1] at hc; cases hc
      · exact ih.1
    cases hs with
    | call op H V hH hn hp =>
      show upd κ.calls κ.next _ 0 = none
      rw [upd_apply, if_neg (Nat.ne_of_lt ih.2)]; exact ih.1
    | act c r a again k t V m b hc hr he => exact key hc
    | bad c r a again k t x hc hr he => exact ih.1
    | ret c r x hc hr => exact key hc
    | panic c r k hc hr => exact key hc
    | reserveMax n hi => exact ih.1

/-- A call that is over stays as it is. -/
theorem Step.over (hs : Step κ κ') (hn : ∀ d, κ.next ≤ d → κ.calls d = none) {r : Rec α β} (hc : κ.calls c = some r) (ho : r.Over) :
    κ'.calls c = some r := by
  have key : ∀ {d : Cid} {r' : Rec α β} {p} {x}, κ.calls d = some r' → r'.status = .running p → upd κ.calls d x c = some r := by
    intro d r' p x hd hp
    rw [upd_apply]
    split
    · next he =>
      subst he
      rw [hc] at hd
      cases hd
      rcases ho with ⟨y, hy⟩ | ⟨y, hy⟩ <;> rw [hy] at hp <;> cases hp
    · exact hc
  cases hs with
  | call op H V hH hn' hp =>
    have : c ≠ κ.next := by intro he; rw [he, hn _ (Nat.le_refl _)] at hc; cases hc
    show upd κ.calls κ.next _ c = _
    rw [upd_apply, if_neg this]; exact hc
  | act d r a again k t V m b hd hr he => exact key hd hr
  | bad d r a again k t x hd hr he => exact hc
  | ret d r x hd hr => exact key hd hr
  | panic d r k hd hr => exact key hd hr
  | reserveMax n hi => exact hc

theorem Step.returned (hs : Step κ κ') (hn : ∀ d, κ.next ≤ d → κ.calls d = none) {op : Op α β} {x : Ret α β} (h : κ.Returned c op x) :
    κ'.Returned c op x := by
  obtain ⟨r, h1, h2, h3⟩ := h
  exact ⟨r, hs.over hn h1 (.inl ⟨x, h3⟩), h2, h3⟩

theorem Step.disciplined (hs : Step κ κ') (hn : ∀ d, κ.next ≤ d → κ.calls d = none) (h : κ'.Disciplined) : κ.Disciplined :=
  fun c e hc d op hd => h c e (hs.called hn hc) d op (hs.called hn hd)

/-- Calls that are over can be waited for. -/
theorem ended_of_over : ∀ {H : List Cid}, (∀ c ∈ H, ∃ r, κ.calls c = some r ∧ r.Over) → ∃ V, Ended κ H V
  | [], _ => ⟨_, .nil⟩
  | c :: H, h => by
    obtain ⟨V, hV⟩ := ended_of_over (H := H) fun d hd => h d (List.mem_cons_of_mem _ hd)
    obtain ⟨r, hr, ⟨x, hx⟩ | ⟨x, hx⟩⟩ := h c (List.mem_cons_self ..)
    · exact ⟨_, .done hr hx hV⟩
    · exact ⟨_, .panicked hr hx hV⟩

/-! ## Results of `iter` -/

theorem Reach.only {op : Op α β} {Q : Ret α β → Prop} (hop : op.prog.Only Q) (h : Reach m κ) :
    ∀ c r, κ.calls c = some r → r.op = op → (∀ p, r.status = .running p → p.Only Q) ∧ ∀ x, r.status = .done x → Q x := by
  induction h with
  | init => intro c r hc; cases hc
  | @step κ κ' _ hs ih =>
    intro d q hq ho
    have key : ∀ {c : Cid} {r r' : Rec α β}, κ.calls c = some r → upd κ.calls c (some r') d = some q → r'.op = r.op →
        (r.op = op → (∀ p, r'.status = .running p → p.Only Q) ∧ ∀ x, r'.status = .done x → Q x) →
        (∀ p, q.status = .running p → p.Only Q) ∧ ∀ x, q.status = .done x → Q x := by
      intro c r r' hc hq hr' h
      rw [upd_apply] at hq
      split at hq
      · cases hq; exact h (by rw [← hr', ho])
      · exact ih _ _ hq ho
    cases hs with
    | call op' H V hH hn hp =>
      have hq : upd κ.calls κ.next _ d = some q := hq
      rw [upd_apply] at hq
      split at hq
      · cases hq
        cases ho
        refine ⟨fun p hp => ?_, fun x hx => ?_⟩
        · cases hp; exact hop
        · cases hx
      · exact ih _ _ hq ho
    | act c r a again k t V m b hc hr he =>
      refine key hc hq rfl fun ho => ⟨fun p hp => ?_, fun x hx => ?_⟩
      · have h1 := (ih _ _ hc ho).1 _ hr
        cases hp
        split
        · exact h1
        · exact h1 b
      · cases hx
    | bad c r a again k t x hc hr he => exact ih _ _ hq ho
    | ret c r x hc hr =>
      refine key hc hq rfl fun ho => ⟨fun p hp => ?_, fun y hy => ?_⟩
      · cases hp
      · cases hy
        exact (ih _ _ hc ho).1 _ hr
    | panic c r k hc hr =>
      refine key hc hq rfl fun ho => ⟨fun p hp => ?_, fun y hy => ?_⟩
      · cases hp
      · cases hy
    | reserveMax n hi => exact ih _ _ hq ho

theorem Reach.iter_returned (h : Reach m κ) {x : Ret α β} (hr : κ.Returned c .iter x) : ∃ n, x = .elems (List.range n) := by
  obtain ⟨r, h1, h2, h3⟩ := hr
  refine (Reach.only (op := .iter) (Q := fun x => ∃ n, x = .elems (List.range n)) ?_ h c r h1 h2).2 x h3
  simp only [Op.prog, CVec.iter, Prog.map_eq, Prog.bind_eq, Prog.bind_assoc, Prog.pure_eq, Prog.ret_bind]
  refine Prog.Only.bind (fun n => ?_) _
  exact ⟨n, by rw [positions, ← List.range_eq_range']⟩

/-! ## Who may change a value -/

variable {D : Mode} {mx k : Nat} {K K0 : Cid → Know}

/-- The call holds the handle of the position, or has reserved and not yet published it. -/
def HasElem (K : Cid → Know) (c : Cid) (e : Nat) : Prop := (K c).L e ∨ (K c).U e

theorem WInv.owner (h : WInv D mx k κ K K0) {d : Cid} (hc : HasElem K c e) (hd : HasElem K d e) : c = d := by
  have key : ∀ {c d}, (K c).L e → (K d).U e → False := by
    intro c d h1 h2
    obtain ⟨r, hr, hv⟩ := (h.k c).l_last e h1
    obtain ⟨q, hq, hn⟩ := (h.k d).fresh e h2
    rw [hq, List.getLast?_singleton, Option.some.injEq] at hr
    rw [← hr, hn] at hv
    cases hv
  rcases hc with hc | hc <;> rcases hd with hd | hd
  · exact h.g.disjL _ _ _ hc hd
  · exact (key hc hd).elim
  · exact (key hd hc).elim
  · exact h.g.disjR _ _ _ ((h.k c).u_r _ hc) ((h.k d).u_r _ hd)

theorem WInv.pre (h : WInv D mx k κ K K0) {r : Rec α β} {a : Act α} {again : a.Resp → Bool} {g : a.Resp → Prog α (Ret α β)}
    (hc : κ.calls c = some r) (hr : r.status = .running (.step a again g)) : Pre D κ.mem.maxCap (K c) a := by
  have hf := h.fits c r hc
  unfold Fits at hf
  rw [hr] at hf
  exact hf.1

theorem WInv.no_panic (h : WInv D mx k κ K K0) {r : Rec α β} {pk : PanicKind}
    (hc : κ.calls c = some r) (hr : r.status = .running (.panic pk)) : r.op.MayPanic pk := by
  have hf := h.fits c r hc
  unfold Fits at hf
  rw [hr] at hf
  exact hf.may

/-- Values are changed by their owners only. -/
theorem WInv.val_step (h : WInv D mx k κ K K0) (hs : Step κ κ') (hne : κ'.mem.val e ≠ κ.mem.val e) :
    ∃ d r a again g, κ.calls d = some r ∧ r.status = .running (.step a again g) ∧ HasElem K d e ∧
      ((∃ v, a = .valWrite e v) ∨ ∃ i j, a = .valSwap i j) := by
  cases hs with
  | call op H V hH hn hp => exact absurd rfl hne
  | bad c r a again k t x hc hr he => exact absurd rfl hne
  | ret c r x hc hr => exact absurd rfl hne
  | panic c r k hc hr => exact absurd rfl hne
  | reserveMax n hi => exact absurd rfl hne
  | act c r a again g t V m b hc hr he =>
    have hp := h.pre hc hr
    have hne : m.val e ≠ κ.mem.val e := hne
    cases a with
    | valWrite i v =>
      simp only [exec] at he
      split at he
      · split at he
        · cases he
          by_cases hi : e = i
          · subst hi
            exact ⟨c, r, _, again, g, hc, hr, hp.2.imp And.left And.left, .inl ⟨v, rfl⟩⟩
          · exact absurd (upd_other _ _ hi) hne
        · cases he
      · cases he
    | valSwap i j =>
      simp only [exec] at he
      split at he
      · split at he
        · cases he
        · split at he
          · split at he
            · cases he
              by_cases hj : e = j
              · subst hj
                exact ⟨c, r, _, again, g, hc, hr, .inl hp.2.2.2.1, .inr ⟨i, e, rfl⟩⟩
              · by_cases hi : e = i
                · subst hi
                  exact ⟨c, r, _, again, g, hc, hr, .inl hp.2.2.1, .inr ⟨e, j, rfl⟩⟩
                · exact absurd ((upd_other _ _ hj).trans (upd_other _ _ hi)) hne
            · cases he
          · cases he
      · cases he
    | _ =>
      refine absurd ?_ hne
      simp only [exec] at he
      repeat' split at he
      all_goals cases he
      all_goals rfl

/-! ## Stages -/

/-- Call `c` is a call of `elCloned e` and has come to stage `s`; when it has read the value, the value is still there. -/
structure At (κ : Cfg α β) (c : Cid) (e : Nat) (s : Stage α) : Prop where
  call : ∃ r, κ.calls c = some r ∧ r.op = .elCloned e ∧ r.status = .running (s.prog e)
  knows : ∀ x, s = .read x → κ.mem.val e = some x

/-- A step of the vector, or none, in which call `c` gets no further. -/
structure Quiet (κ κ' : Cfg α β) (c : Cid) : Prop where
  step : κ' = κ ∨ Step κ κ'
  same : κ'.calls c = κ.calls c

theorem At.owns {x : α} (ha : At κ c e (.read x)) (h : WInv D mx k κ K K0) : HasElem K c e := by
  obtain ⟨r, h1, h2, h3⟩ := ha.call
  exact (h.pre h1 h3).2.2.2.imp id And.left

theorem At.quiet {s : Stage α} (ha : At κ c e s) (h : WInv D mx k κ K K0) (hq : Quiet κ κ' c) : At κ' c e s := by
  refine ⟨by rw [hq.same]; exact ha.call, fun x hx => ?_⟩
  rcases hq.step with rfl | hs
  · exact ha.knows x hx
  · refine Classical.byContradiction fun hne => ?_
    subst hx
    obtain ⟨d, r, a, again, g, h1, h2, h3, h4⟩ := h.val_step hs fun he => hne (he.trans (ha.knows x rfl))
    obtain rfl := h.owner (ha.owns h) h3
    obtain ⟨r', g1, g2, g3⟩ := ha.call
    rw [h1] at g1
    cases g1
    rw [h2] at g3
    rcases h4 with ⟨v, rfl⟩ | ⟨i, j, rfl⟩ <;> cases g3

/-- Configuration after an action of call `c`. -/
abbrev Cfg.acted (κ : Cfg α β) (c : Cid) (r : Rec α β) (V : View) (m : WMem α) (p : Prog α (Ret α β)) : Cfg α β :=
  { κ with mem := m, calls := upd κ.calls c (some { r with view := V, status := .running p }) }

section

variable {r : Rec α β} {a : Act α} {again : a.Resp → Bool} {g : a.Resp → Prog α (Ret α β)} {t : Nat} {V : View} {m : WMem α} {b : a.Resp}

theorem At.next {s : Stage α} (ha : At κ c e s) (hc : κ.calls c = some r) {p : Prog α (Ret α β)} (hr : r.status = .running p) :
    p = s.prog e ∧ r.op = .elCloned e := by
  obtain ⟨r', h1, h2, h3⟩ := ha.call
  rw [h1] at hc
  cases hc
  rw [hr] at h3
  cases h3
  exact ⟨rfl, h2⟩

/-- Attempt to take the handle. -/
theorem At.lock (ha : At κ c e .wait) (hc : κ.calls c = some r) (hr : r.status = .running (.step a again g))
    (he : exec a t r.view κ.mem = .ok V m b)
    (h : WInv D mx k (κ.acted c r V m (if again b then .step a again g else g b)) K K0) :
    (again b = true ∧ At (κ.acted c r V m (.step a again g)) c e .wait) ∨
    (again b = false ∧ At (κ.acted c r V m (g b)) c e .held) := by
  obtain ⟨h1, h2⟩ := ha.next hc hr
  simp only [Stage.prog, elCloned_prog, Prog.step.injEq] at h1
  obtain ⟨rfl, h3, h4⟩ := h1
  have h3 := eq_of_heq h3
  have h4 := eq_of_heq h4
  subst h3 h4
  change Option CState at b
  rcases b with _ | s
  · exact .inr ⟨rfl, ⟨_, upd_same _ _ _, h2, rfl⟩, fun x hx => by cases hx⟩
  · by_cases hs : s = .RESERVED
    · subst hs
      exact .inl ⟨rfl, ⟨_, upd_same _ _ _, h2, by rw [Stage.prog, elCloned_prog]⟩, fun x hx => by cases hx⟩
    · exfalso
      have h5 : ((some s : Option CState) == some .RESERVED) = false := by cases s <;> first | rfl | exact absurd rfl hs
      simp only [h5, Bool.false_eq_true, if_false] at h
      have h6 := h.no_panic (pk := .noValue) (upd_same _ _ _) rfl
      simp only [h2] at h6
      exact h6

/-- Reading the value. -/
theorem At.readValue (ha : At κ c e .held) (hc : κ.calls c = some r) (hr : r.status = .running (.step a again g))
    (he : exec a t r.view κ.mem = .ok V m b) : again b = false ∧ ∃ x, At (κ.acted c r V m (g b)) c e (.read x) := by
  obtain ⟨h1, h2⟩ := ha.next hc hr
  simp only [Stage.prog, Prog.step.injEq] at h1
  obtain ⟨rfl, h3, h4⟩ := h1
  have h3 := eq_of_heq h3
  have h4 := eq_of_heq h4
  subst h3 h4
  simp only [exec] at he
  split at he
  · split at he
    · split at he
      · next v hv =>
        cases he
        exact ⟨rfl, _, ⟨_, upd_same _ _ _, h2, rfl⟩, fun x hx => by cases hx; exact hv⟩
      · cases he
    · cases he
  · cases he

/-- Giving the handle back. -/
theorem At.unlock {x : α} (ha : At κ c e (.read x)) (hc : κ.calls c = some r) (hr : r.status = .running (.step a again g)) :
    again b = false ∧ At (κ.acted c r V m (g b)) c e (.free x) := by
  obtain ⟨h1, h2⟩ := ha.next hc hr
  simp only [Stage.prog, Prog.step.injEq] at h1
  obtain ⟨rfl, h3, h4⟩ := h1
  have h3 := eq_of_heq h3
  have h4 := eq_of_heq h4
  subst h3 h4
  exact ⟨rfl, ⟨_, upd_same _ _ _, h2, rfl⟩, fun x hx => by cases hx⟩

end

end Weak

end Verif
