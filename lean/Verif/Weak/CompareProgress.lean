import Verif.Weak.CompareInv
import Verif.Weak.Progress
import Verif.Weak.SpecCompareProgress
import Verif.Proof.CompareEnds

/-!
# Who waits for whom when vectors are compared under weak memory, for C61

Helper file (no property statements).
-/

namespace Verif

variable {α ρ ρ' : Type}

/-- No action of the program is repeated. -/
def Prog.Straight : Prog α ρ → Prop
  | .ret _ => True
  | .panic _ => True
  | .step _ again k => (∀ b, again b = false) ∧ ∀ b, (k b).Straight

theorem Prog.Straight.bind {f : ρ → Prog α ρ'} (hf : ∀ x, (f x).Straight) : ∀ {p : Prog α ρ}, p.Straight → (p.bind f).Straight
  | .ret x, _ => hf x
  | .panic _, _ => trivial
  | .step _ _ _, h => ⟨h.1, fun b => (h.2 b).bind hf⟩

theorem straight_settled : ∀ k i, (CVec.settled i k : Prog α Nat).Straight
  | 0, _ => trivial
  | k + 1, i => by
    refine ⟨fun _ => rfl, fun b => ?_⟩
    simp only [Prog.ret_bind]
    split
    · exact straight_settled k _
    · trivial

theorem straight_iter {β : Type} : (Op.iter : Op α β).prog.Straight := by
  simp only [Op.prog, CVec.iter, CVec.len, Prog.map_eq, Prog.bind_eq, Prog.bind_assoc, Prog.pure_eq, Prog.ret_bind, act, Prog.step_bind]
  refine ⟨fun _ => rfl, fun b => ⟨fun _ => rfl, fun b => ⟨fun _ => rfl, fun b => ?_⟩⟩⟩
  refine (straight_settled _ _).bind (fun x => ?_)
  exact ⟨fun _ => rfl, fun _ => trivial⟩

namespace Weak

variable {β : Type} {κ : Cfg α β} {c : Cid} {e : Nat} {D : Mode} {mx k : Nat} {K K0 : Cid → Know}

/-- A call that has nothing to repeat is not blocked. -/
theorem not_blocked_of_straight (h : WInv D mx k κ K K0) (hB : BInv κ) {r : Rec α β} {p : Prog α (Ret α β)} (hc : κ.calls c = some r)
    (hr : r.status = .running p) (hp : p.Straight) : ¬ κ.Blocked c := by
  intro hb
  cases p with
  | ret x =>
    refine absurd ⟨⟨r, hc, .inr (.inl ⟨x, hr, rfl⟩)⟩, ?_⟩ (hb.2 _)
    rw [Cfg.at_some hc, Cfg.at_some (upd_same _ _ _), hr]
    intro he; cases he
  | panic k =>
    refine absurd ⟨⟨r, hc, .inr (.inr ⟨k, hr, rfl⟩)⟩, ?_⟩ (hb.2 _)
    rw [Cfg.at_some hc, Cfg.at_some (upd_same _ _ _), hr]
    intro he; cases he
  | step a again g =>
    obtain ⟨t, V, m, b, he, -⟩ := exec_newest (hB.views c r hc) (Cfg.viewOf_some hc) h.g h.k (h.pre hc hr)
    refine absurd ⟨⟨r, hc, .inl ⟨a, again, g, t, V, m, b, hr, he, rfl⟩⟩, ?_⟩ (hb.2 _)
    rw [Cfg.at_some hc, Cfg.at_some (upd_same _ _ _), hr, hp.1 b]
    intro heq
    simp only [Bool.false_eq_true, if_false, Option.some.injEq, Status.running.injEq] at heq
    exact Prog.cont_ne _ a again g b rfl heq

theorem Reach.straight {m : Mem α} {op : Op α β} (hop : op.prog.Straight) (h : Reach m κ) :
    ∀ c r, κ.calls c = some r → r.op = op → ∀ p, r.status = .running p → p.Straight := by
  induction h with
  | init => intro c r hc; cases hc
  | @step κ κ' _ hs ih =>
    intro d q hq ho
    have key : ∀ {c : Cid} {r r' : Rec α β}, κ.calls c = some r → upd κ.calls c (some r') d = some q → r'.op = r.op →
        (r.op = op → ∀ p, r'.status = .running p → p.Straight) → ∀ p, q.status = .running p → p.Straight := by
      intro c r r' hc hq hr' h
      rw [upd_apply] at hq
      split at hq
      · cases hq; exact h (by rw [← hr', ho])
      · exact ih _ _ hq ho
    cases hs with
    | call op' H V hH hn hp =>
      have hq : upd κ.calls κ.next _ d = some q := hq
      rw [upd_apply] at hq
      split at hq
      · cases hq
        cases ho
        intro p hp
        cases hp; exact hop
      · exact ih _ _ hq ho
    | act c r a again k t V m b hc hr he =>
      refine key hc hq rfl fun ho p hp => ?_
      have h1 := ih _ _ hc ho _ hr
      cases hp
      split
      · exact h1
      · exact h1.2 b
    | bad c r a again k t x hc hr he => exact ih _ _ hq ho
    | ret c r x hc hr => exact key hc hq rfl fun ho p hp => by cases hp
    | panic c r k hc hr => exact key hc hq rfl fun ho p hp => by cases hp
    | reserveMax n hi => exact ih _ _ hq ho

/-- `iter` never waits. -/
theorem iter_not_blocked {m : Mem α} (hR : Reach m κ) (h : WInv D mx k κ K K0) (hr : κ.Running c .iter) : ¬ κ.Blocked c := by
  obtain ⟨r, p, hc, ho, hp⟩ := hr
  exact not_blocked_of_straight h (binv hR) hc hp (hR.straight straight_iter c r hc ho p hp)

/-- An element call waits for the handle of its element only. -/
theorem At.blocked {s : Stage α} (ha : At κ c e s) (h : WInv D mx k κ K K0) (hB : BInv κ) (hb : κ.Blocked c) : s = .wait := by
  obtain ⟨r, hc, ho, hr⟩ := ha.call
  cases s with
  | wait => rfl
  | held => exact absurd hb (not_blocked_of_straight h hB hc hr ⟨fun _ => rfl, fun _ => ⟨fun _ => rfl, fun _ => trivial⟩⟩)
  | read x => exact absurd hb (not_blocked_of_straight h hB hc hr ⟨fun _ => rfl, fun _ => trivial⟩)
  | free x => exact absurd hb (not_blocked_of_straight h hB hc hr trivial)

theorem At.asks (ha : At κ c e .wait) {r : Rec α β} {a : Act α} {again : a.Resp → Bool} {g : a.Resp → Prog α (Ret α β)}
    (hc : κ.calls c = some r) (hr : r.status = .running (.step a again g)) : a = .stCas e .SOME .RESERVED .acquire .relaxed := by
  have h1 := (ha.next hc hr).1
  simp only [Stage.prog, elCloned_prog, Prog.step.injEq] at h1
  exact h1.1

/-- An element call that has the handle has no other handle and has reserved nothing. -/
theorem At.held_only (ha : At κ c e .held) (h : WInv D mx k κ K K0) (hB : BInv κ) :
    (∀ i, (K c).L i → i = e) ∧ ∀ i, (K c).R i → (K c).A i := by
  obtain ⟨r, hc, ho, hr⟩ := ha.call
  have hf := h.fits c r hc
  unfold Fits at hf
  rw [hr] at hf
  obtain ⟨t, V, m, b, he, -⟩ := exec_newest (hB.views c r hc) (Cfg.viewOf_some hc) h.g h.k (h.pre hc hr)
  obtain ⟨-, hf⟩ := hf
  have h1 := (hf b trivial).2 rfl
  obtain ⟨-, h2⟩ := h1
  have h3 : Done D r.op (K0 c) _ _ := (h2 () trivial).2 rfl
  refine ⟨fun i hi => Classical.byContradiction fun hne => h3.l i ⟨hi, hne⟩, fun i hi => h3.own i hi⟩

theorem At.held_has (ha : At κ c e .held) (h : WInv D mx k κ K K0) (hB : BInv κ) : HasElem K c e := by
  obtain ⟨r, hc, ho, hr⟩ := ha.call
  have hf := h.fits c r hc
  unfold Fits at hf
  rw [hr] at hf
  obtain ⟨t, V, m, b, he, -⟩ := exec_newest (hB.views c r hc) (Cfg.viewOf_some hc) h.g h.k (h.pre hc hr)
  obtain ⟨-, hf⟩ := hf
  have h1 := (hf b trivial).2 rfl
  exact h1.1.2.2.2.imp id And.left

/-- An element call that has the handle. -/
theorem At.held_owns (ha : At κ c e .held) (h : WInv D mx k κ K K0) : (K c).L e ∨ (D.deref e ∧ (K c).P e) := by
  obtain ⟨r, hc, ho, hr⟩ := ha.call
  exact (h.pre hc hr).2

/-! ## Waiting comparisons -/

section sys

variable {m : Nat → Mem α} {l : Nat → List α} {S : Nat → Sys α β} {n k : Nat} {T : Cmp α β}

/-- What the calls own and know. -/
structure Ghost (D : Nat → Mode) (mx len : Nat → Nat) (S : Sys α β) (K : Nat → Cid → Know) : Prop where
  w : ∀ u, ∃ K0, WInv (D u) (mx u) (len u) (S.vec u) (K u) K0
  p : ∀ u, PInv (len u) (S.vec u) (K u)
  b : ∀ u, BInv (S.vec u)

/-- Which element is where. -/
theorem Sys.Elements.pos {S : Sys α β} {s : Side} {es : List Nat} (hI : SysInv m S) (he : S.Elements T s es) {j e : Nat}
    (hj : es[j]? = some e) : e = (T.arg s).pos j := by
  unfold Sys.Elements at he
  cases ha : T.arg s with
  | vec =>
    simp only [ha] at he
    obtain ⟨c, hc, hr⟩ := he
    obtain ⟨N, hN⟩ := (hI.reach _).iter_returned hr
    cases hN
    obtain ⟨h1, h2⟩ := List.getElem?_eq_some_iff.1 hj
    simp only [List.getElem_range] at h2
    exact h2.symm
  | slc t =>
    simp only [ha] at he
    subst he
    obtain ⟨h1, h2⟩ := List.getElem?_eq_some_iff.1 hj
    simp only [Slc.view, List.getElem_map, List.getElem_range] at h2
    exact h2.symm
  | el e' =>
    simp only [ha] at he
    subst he
    cases j with
    | zero => simp at hj; exact hj.symm
    | succ j => simp at hj

theorem pos_lt {S : Sys α β} (hI : SysInv m S) (h : T.p.pos 0 < T.q.pos 0) {es fs : List Nat}
    (h1 : S.Elements T .left es) (h2 : S.Elements T .right fs) {j e f : Nat} (he : es[j]? = some e)
    (hf : fs[j]? = some f) : e < f := by
  have e1 := h1.pos hI he
  have e2 := h2.pos hI hf
  simp only [Verif.Cmp.arg] at e1 e2
  subst e1 e2
  have h4 : (∃ x, T.q = .el x) → j = 0 := by
    rintro ⟨x, hx⟩
    simp only [Sys.Elements, Verif.Cmp.arg, hx] at h2
    subst h2
    cases j with
    | zero => rfl
    | succ j => simp at hf
  generalize T.p = p at h ⊢
  generalize T.q = q at h h4 ⊢
  cases p <;> cases q <;> simp only [Arg.pos] at h ⊢ <;> first
    | omega
    | (have := h4 ⟨_, rfl⟩; omega)

theorem Cmp.Rests.not_running {S : Sys α β} (hI : SysInv m S) {s : Side} (h : T.Rests S s) {op : Op α β} :
    ¬ (S.vec (T.vecOf s)).Running (T.cid s) op := by
  rintro ⟨r, p, hc, -, hr⟩
  obtain ⟨r', h1, h2⟩ := h _ (cid_mem (hI.called_pos hc))
  rw [hc] at h1
  cases h1
  rcases h2 with ⟨x, h2⟩ | ⟨x, h2⟩ <;> rw [hr] at h2 <;> cases h2

/-- A running call of a comparison: the comparison is not over. -/
theorem Phase.comparing (hI : SysInv m (S n)) (hP : Phase S n k T) (hk : (S n).cmp k = some T) {s : Side} {op : Op α β}
    (hr : ((S n).vec (T.vecOf s)).Running (T.cid s) op) : (S n).Comparing k := by
  have key : T.Rests (S n) .left → T.Rests (S n) .right → False := fun h1 h2 => by
    cases s
    · exact h1.not_running hI hr
    · exact h2.not_running hI hr
  refine ⟨T, hk, fun b hb => ?_, fun e he => ?_⟩
  · cases hP with
    | ret es fs ps b hH hv h rl rr => exact key rl rr
    | locking es fs ps e f hH hv he hf h => cases h <;> rename_i h <;> rw [h] at hb <;> cases hb
    | judging es fs ps e f x y t hH hv he hf ht hp hd h => cases h <;> rename_i h <;> rw [h] at hb <;> cases hb
    | fail es fs ps j hH hv h rl rr => exact key rl rr
    | callL hp hq rl rr h => exact key rl rr
    | callR es hq hl hr rl rr h => exact key rl rr
    | finL hp hq rr hc h => rw [h] at hb; cases hb
    | finR es hq hl hr rl hc h => rw [h] at hb; cases hb
  · cases hP with
    | ret es fs ps b hH hv h rl rr => exact key rl rr
    | locking es fs ps e f hH hv hee hf h => cases h <;> rename_i h <;> rw [h] at he <;> cases he
    | judging es fs ps e f x y t hH hv hee hf ht hp hd h => cases h <;> rename_i h <;> rw [h] at he <;> cases he
    | fail es fs ps j hH hv h rl rr => exact key rl rr
    | callL hp hq rl rr h => exact key rl rr
    | callR es hq hl hr rl rr h => exact key rl rr
    | finL hp hq rr hc h => rw [h] at he; cases he
    | finR es hq hl hr rl hc h => rw [h] at he; cases he

/-- A waiting comparison: which handle it waits for and which it holds. -/
inductive WaitsAt (S : Sys α β) (T : Cmp α β) : Side → Prop where
  | left (e : Nat) (h : At (S.vec T.u) (T.cid .left) e .wait) (rr : T.Rests S .right) : WaitsAt S T .left
  | right (e f j : Nat) (es fs : List Nat) (hl : At (S.vec T.u) (T.cid .left) e .held) (hr : At (S.vec T.v) (T.cid .right) f .wait)
      (hes : S.Elements T .left es) (hfs : S.Elements T .right fs) (he : es[j]? = some e) (hf : fs[j]? = some f) : WaitsAt S T .right

variable {D : Nat → Mode} {mx len : Nat → Nat} {K : Nat → Cid → Know}

theorem Phase.waitsAt (hG : Ghost D mx len (S n) K) (hP : Phase S n k T) {s : Side} {K' : Client α β} (ht : T.prog = .step s K')
    (hb : ((S n).vec (T.vecOf s)).Blocked (T.cid s)) : WaitsAt (S n) T s := by
  have stage : ∀ {u c e st}, At ((S n).vec u) c e st → ((S n).vec u).Blocked c → st = .wait := by
    intro u c e st h hb
    obtain ⟨K0, hw⟩ := hG.w u
    exact h.blocked hw (hG.b u) hb
  cases hP with
  | locking es fs ps e f hH hv he hf h =>
    cases h with
    | callL rl rr h => rw [h] at ht; cases ht
    | callR rr hl h => rw [h] at ht; cases ht
    | lockL rr hl h => rw [h] at ht; cases ht; exact .left e hl rr
    | lockR hl hr h => rw [h] at ht; cases ht; exact .right e f _ es fs hl hr hH.left hH.right he hf
    | readL hl hr h => rw [h] at ht; cases ht; cases stage hl hb
    | readR x hl hr h => rw [h] at ht; cases ht; cases stage hr hb
  | judging es fs ps e f x y t hH hv he hf ht' hp hd h => cases h <;> rename_i h <;> rw [h] at ht <;> cases ht
  | callL hp hq rl rr h => rw [h] at ht; cases ht
  | callR es hq hl hr rl rr h => rw [h] at ht; cases ht
  | finL hp hq rr hc h => rw [h] at ht; cases ht
  | finR es hq hl hr rl hc h => rw [h] at ht; cases ht
  | ret es fs ps b hH hv h rl rr => rw [h] at ht; cases ht
  | fail es fs ps j hH hv h rl rr => rw [h] at ht; cases ht

/-- A comparison that waits and has a handle waits for a later one. -/
theorem WaitsAt.holds {S : Sys α β} (hI : SysInv m S) (hG : Ghost D mx len S K) {s s' : Side} (hP : WaitsAt S T s)
    {rank : Nat → Nat} (hu : T.toCmp.Upwards rank) (hord : ∀ u, (D u).ordered) (hrun : ∃ op, (S.vec (T.vecOf s')).Running (T.cid s') op)
    {i : Nat} (hL : (K (T.vecOf s') (T.cid s')).L i) {r : Rec α β} {a : Act α} {again : a.Resp → Bool} {g : a.Resp → Prog α (Ret α β)}
    (hc : (S.vec (T.vecOf s)).calls (T.cid s) = some r) (hr : r.status = .running (.step a again g))
    (hw : Waits (D (T.vecOf s)) (S.vec (T.vecOf s)).mem (K (T.vecOf s) (T.cid s)) a) :
    ∃ j e1 e2 o1 o2, a = .stCas j e1 e2 o1 o2 ∧
      ((T.vecOf s = T.vecOf s' ∧ i < j) ∨ (s = .right ∧ rank (T.vecOf s') < rank (T.vecOf s))) := by
  obtain ⟨op, hrun⟩ := hrun
  cases hP with
  | left e h rr =>
    obtain rfl := h.asks hc hr
    refine ⟨e, _, _, _, _, rfl, ?_⟩
    cases s' with
    | left => exact .inl ⟨rfl, hord _ _ _ (hw.2.2.2 i hL)⟩
    | right => exact (rr.not_running hI hrun).elim
  | right e f j es fs hl hr' hes hfs he hf =>
    obtain rfl := hr'.asks hc hr
    refine ⟨f, _, _, _, _, rfl, ?_⟩
    cases s' with
    | right => exact .inl ⟨rfl, hord _ _ _ (hw.2.2.2 i hL)⟩
    | left =>
      rcases hu with hlt | ⟨huv, hlt⟩
      · exact .inr ⟨rfl, hlt⟩
      · obtain ⟨K0, hW⟩ := hG.w T.u
        obtain rfl := (hl.held_only hW (hG.b _)).1 i hL
        exact .inl ⟨huv.symm, pos_lt hI hlt hes hfs he hf⟩

/-- A comparison that waits does not have to allocate. -/
theorem WaitsAt.owner_free {S : Sys α β} (hI : SysInv m S) (hG : Ghost D mx len S K) {s s' : Side} (hP : WaitsAt S T s)
    (hb : (S.vec (T.vecOf s)).Blocked (T.cid s)) (hrun : ∃ op, (S.vec (T.vecOf s')).Running (T.cid s') op)
    {p : Nat} (hp : p = lastVal (S.vec (T.vecOf s')).mem.cap) : ¬ (K (T.vecOf s') (T.cid s')).R p := by
  intro hR
  obtain ⟨op, hrun⟩ := hrun
  have self : s' = s → False := by
    rintro rfl
    obtain ⟨K0, hW⟩ := hG.w (T.vecOf s')
    obtain ⟨r, a, again, g, -, -, hw⟩ := blocked_waits hW (hG.b _) hb
    exact owner_not_waiting hp hR hw
  cases hP with
  | left e h rr =>
    cases s' with
    | left => exact self rfl
    | right => exact rr.not_running hI hrun
  | right e f j es fs hl hr' hes hfs he hf =>
    cases s' with
    | right => exact self rfl
    | left =>
      obtain ⟨K0, hW⟩ := hG.w T.u
      have h1 := (hl.held_only hW (hG.b _)).2 p hR
      have h2 := ((hW.k _).a p h1).2.1
      simp only [Verif.Cmp.vecOf] at hp
      omega

/-! ## Somebody can get ahead -/

/-- Somebody can get ahead. -/
def Sys.Moving (S : Sys α β) : Prop :=
  (∃ k, S.Comparing k ∧ ¬ S.Waits k) ∨ ∃ u c, (∃ op, (S.vec u).Running c op) ∧ S.Foreign u c ∧ ¬ (S.vec u).Blocked c

/-- If anybody is busy, somebody can get ahead. -/
theorem moving (hI : SysInv m (S n)) (hG : Ghost D mx len (S n) K) (hP : ∀ k T, (S n).cmp k = some T → Phase S n k T)
    (hord : ∀ u, (D u).ordered) (hg : (S n).GrowthIntact mx) {rank : Nat → Nat} (hup : (S n).Upwards rank) {R : Nat}
    (hR : ∀ k T, (S n).cmp k = some T → rank T.v ≤ R)
    (hb : (∃ k, (S n).Comparing k) ∨ ∃ u c, ∃ op, ((S n).vec u).Running c op) : (S n).Moving := by
  refine Classical.byContradiction fun hno => ?_
  have hfor : ∀ u c, (∃ op, ((S n).vec u).Running c op) → (S n).Foreign u c → ((S n).vec u).Blocked c := fun u c h1 h2 =>
    Classical.byContradiction fun h3 => hno (.inr ⟨u, c, h1, h2, h3⟩)
  have hcmp : ∀ k, (S n).Comparing k → (S n).Waits k := fun k h1 => Classical.byContradiction fun h2 => hno (.inl ⟨k, h1, h2⟩)
  -- a running call is blocked, or belongs to a comparison that waits
  have hcases : ∀ u c, (∃ op, ((S n).vec u).Running c op) → ((S n).vec u).Blocked c ∨
      ∃ k T s s', (S n).cmp k = some T ∧ (S n).Comparing k ∧ WaitsAt (S n) T s ∧ ((S n).vec (T.vecOf s)).Blocked (T.cid s) ∧
        T.vecOf s' = u ∧ T.cid s' = c := by
    intro u c hr
    by_cases hf : (S n).Foreign u c
    · exact .inl (hfor u c hr hf)
    · simp only [Sys.Foreign, not_forall, Classical.not_not] at hf
      obtain ⟨k, T, s', hk, rfl, rfl⟩ := hf
      obtain ⟨op, hr⟩ := hr
      have hc := (hP k T hk).comparing hI hk hr
      obtain ⟨T', s, K', hk', ht, hb⟩ := hcmp k hc
      rw [hk] at hk'
      cases hk'
      exact .inr ⟨k, T, s, s', hk, hc, (hP k T hk).waitsAt hG ht hb, hb, rfl, rfl⟩
  have hcap : ∀ u c, (∃ op, ((S n).vec u).Running c op) → ∀ o : MOrd, ¬ Waits (D u) ((S n).vec u).mem (K u c) (.capLoad o : Act α) := by
    intro u c hr o ⟨⟨i, hi⟩, hw⟩
    obtain ⟨K0, hW⟩ := hG.w u
    obtain ⟨d, hd⟩ := next_owner hW (hG.p u) hi (hw i hi).1
    have hdr := owner_running hW (hG.p u) (hg u) rfl hd hi (hw i hi).1 (hw i hi).2 hr
    rcases hcases u d hdr with hb | ⟨k, T, s, s', hk, -, hw', hb, rfl, rfl⟩
    · obtain ⟨r, a, again, g, -, -, hw'⟩ := blocked_waits hW (hG.b u) hb
      exact owner_not_waiting rfl hd hw'
    · exact hw'.owner_free hI hG hb hdr rfl hd
  have hlock : ∀ M N u i d, R - rank u = M → ((S n).vec u).mem.maxCap - i = N → ¬ (K u d).L i := by
    intro M
    induction M using Nat.strongRecOn with
    | ind M ihM =>
      intro N
      induction N using Nat.strongRecOn with
      | ind N ihN =>
        intro u i d hM hN hd
        obtain ⟨K0, hW⟩ := hG.w u
        have hr := holder_running hW (hG.p u) hd
        rcases hcases u d hr with hb | ⟨k, T, s, s', hk, hc, hw', hb, rfl, rfl⟩
        · obtain ⟨r, a, again, g, -, -, hw⟩ := blocked_waits hW (hG.b u) hb
          cases a with
          | capLoad o => exact hcap u d hr o hw
          | stCas j e s ok fail =>
            obtain ⟨h1, h2, -, h3⟩ := hw
            obtain ⟨e, he⟩ := (hG.p u).held j h1
            have := hord u _ _ (h3 i hd)
            have := alloc_bound hW h2
            exact ihN (((S n).vec u).mem.maxCap - j) (by omega) u j e hM rfl he
          | _ => exact hw
        · obtain ⟨K1, hW'⟩ := hG.w (T.vecOf s)
          obtain ⟨r, a, again, g, h1, h2, hw⟩ := blocked_waits hW' (hG.b _) hb
          obtain ⟨j, e1, e2, o1, o2, rfl, hj⟩ := hw'.holds hI hG (hup k T hk hc) hord hr hd h1 h2 hw
          obtain ⟨h1, h2, -, -⟩ := hw
          obtain ⟨e, he⟩ := (hG.p _).held j h1
          have := alloc_bound hW' h2
          rcases hj with ⟨hv, hij⟩ | ⟨rfl, hlt⟩
          · rw [hv] at this he
            exact ihN (((S n).vec (T.vecOf s')).mem.maxCap - j) (by omega) _ j e hM rfl he
          · have h5 : rank (T.vecOf .right) ≤ R := hR k T hk
            exact ihM (R - rank (T.vecOf .right)) (by omega) _ _ j e rfl rfl he
  -- nobody waits
  have hend : ∀ u c, ¬ ((S n).vec u).Blocked c := by
    intro u c hb
    obtain ⟨K0, hW⟩ := hG.w u
    obtain ⟨r, a, again, g, -, -, hw⟩ := blocked_waits hW (hG.b u) hb
    cases a with
    | capLoad o => exact hcap u c hb.1 o hw
    | stCas j e s ok fail =>
      obtain ⟨e, he⟩ := (hG.p u).held j hw.1
      exact hlock _ _ u j e rfl rfl he
    | _ => exact hw
  rcases hb with ⟨k, hk⟩ | ⟨u, c, hr⟩
  · obtain ⟨T, s, K', -, -, hb⟩ := hcmp k hk
    exact hend _ _ hb
  · rcases hcases u c hr with hb | ⟨k, T, s, s', hk, -, -, hb, -⟩
    · exact hend _ _ hb
    · exact hend _ _ hb

theorem SysExec.rank_bound (h : SysExec m n S) (rank : Nat → Nat) : ∀ {t}, t ≤ n →
    ∃ R, ∀ k T, (S t).cmp k = some T → rank T.v ≤ R := by
  intro t
  induction t with
  | zero => intro _; exact ⟨0, fun k T hk => by rw [h.init] at hk; cases hk⟩
  | succ t ih =>
    intro ht
    obtain ⟨R, hR⟩ := ih (by omega)
    have key : ∀ {c : Nat → Option (Cmp α β)} {k : Nat} {T' : Cmp α β} {R' : Nat}, R ≤ R' → rank T'.v ≤ R' →
        c = upd (S t).cmp k (some T') → ∀ k1 T1, c k1 = some T1 → rank T1.v ≤ R' := by
      intro c k T' R' h1 h2 hc k1 T1 hk1
      rw [hc] at hk1
      by_cases hkk : k1 = k
      · subst hkk
        simp only [upd_same, Option.some.injEq] at hk1
        subst hk1; exact h2
      · rw [upd_other _ _ hkk] at hk1
        exact Nat.le_trans (hR _ _ hk1) h1
    have hs := h.next t (by omega)
    generalize S (t + 1) = S' at hs
    cases hs with
    | vec => exact ⟨R, hR⟩
    | start k u v p q veq => exact ⟨max R (rank v), key (Nat.le_max_left _ _) (Nat.le_max_right _ _) rfl⟩
    | call k T s op K κ H V hk => exact ⟨R, key (Nat.le_refl _) (by exact hR k T hk) rfl⟩
    | step k T s K κ r a again g t' V w b hk => exact ⟨R, key (Nat.le_refl _) (by exact hR k T hk) rfl⟩
    | finStep => exact ⟨R, hR⟩
    | finRet k T s K κ r z hk => exact ⟨R, key (Nat.le_refl _) (by exact hR k T hk) rfl⟩
    | panic k T s κ r pk hk => exact ⟨R, key (Nat.le_refl _) (by exact hR k T hk) rfl⟩
    | bad => exact ⟨R, hR⟩

/-- The modes of the vectors. -/
abbrev Sys.mode (S : Sys α β) (u : Nat) : Mode := orderedMode (S.vec u)

theorem SysInv.ghost {S : Sys α β} (hI : SysInv m S) (hm : ∀ u, InitMem (m u) (l u)) (hd : S.Disciplined) (hs : S.SwapsUp) :
    ∃ K, Ghost S.mode (fun u => (m u).maxCap) (fun u => (l u).length) S K := by
  have h1 : ∀ u, ∃ K, (∃ K0, WInv (S.mode u) (m u).maxCap (l u).length (S.vec u) K K0) ∧ PInv (l u).length (S.vec u) K := by
    intro u
    obtain ⟨K, K0, h1, h2⟩ := pinv (D := S.mode u) (hm u) (hI.reach u) fun c op hc => allowed_ordered (hd u) (hs u) hc
    exact ⟨K, ⟨K0, h1⟩, h2⟩
  choose K hK using h1
  exact ⟨K, fun u => (hK u).1, fun u => (hK u).2, fun u => binv (hI.reach u)⟩

theorem SysExec.moving (h : SysExec m n S) (hm : ∀ u, InitMem (m u) (l u)) (hd : (S n).Disciplined) (hs : (S n).SwapsUp)
    (hg : (S n).GrowthIntact fun u => (m u).maxCap) {rank : Nat → Nat} (hup : (S n).Upwards rank)
    (hb : (∃ k, (S n).Comparing k) ∨ ∃ u c, ∃ op, ((S n).vec u).Running c op) : (S n).Moving := by
  obtain ⟨K, hG⟩ := (h.inv (Nat.le_refl n)).ghost hm hd hs
  obtain ⟨R, hR⟩ := h.rank_bound rank (Nat.le_refl n)
  exact Weak.moving (h.inv (Nat.le_refl n)) hG (h.phase hm hd (Nat.le_refl n)) (fun _ => (fun _ _ h => h)) hg hup hR hb

end sys

end Weak

end Verif
