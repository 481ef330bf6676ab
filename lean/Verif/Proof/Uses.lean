import Verif.Proof.Fair

/-!
# Which elements a program locks

Helper file (no property statements).
-/

namespace Verif

variable {α β : Type} {m : Mem α} {l : List α}

/-- The program locks only elements at positions in `P`. -/
def Prog.LocksIn {ρ : Type} (P : Nat → Prop) : Prog α ρ → Prop
  | .step a _ k => (∀ i e n o f, a = .stCas i e n o f → P i) ∧ ∀ b, (k b).LocksIn P
  | _ => True

section

open Prog

variable {ρ ρ' : Type} {P : Nat → Prop}

theorem Prog.LocksIn.bind {p : Prog α ρ} {f : ρ → Prog α ρ'} (hp : p.LocksIn P) (hf : ∀ r, (f r).LocksIn P) :
    (p.bind f).LocksIn P := by
  induction p with
  | ret r => exact hf r
  | panic k => trivial
  | step a again k ih => exact ⟨hp.1, fun b => ih b (hp.2 b)⟩

theorem Prog.LocksIn.mono {Q : Nat → Prop} (hPQ : ∀ i, P i → Q i) {p : Prog α ρ} (hp : p.LocksIn P) : p.LocksIn Q := by
  induction p with
  | ret r => trivial
  | panic k => trivial
  | step a again k ih => exact ⟨fun i e n o f h => hPQ i (hp.1 i e n o f h), fun b => ih b (hp.2 b)⟩

theorem Prog.NoLock.locksIn {p : Prog α ρ} (hp : p.NoLock) : p.LocksIn P := by
  induction p with
  | ret r => trivial
  | panic k => trivial
  | step a again k ih => exact ⟨fun i e n o f h => (hp.1 i e n o f h).elim, fun b => ih b (hp.2 b)⟩

theorem Prog.LocksIn.all {p : Prog α ρ} : p.LocksIn fun _ => True := by
  induction p with
  | ret r => trivial
  | panic k => trivial
  | step a again k ih => exact ⟨fun _ _ _ _ _ _ => trivial, ih⟩

theorem locksIn_act {a : Act α} (h : ∀ i e n o f, a ≠ .stCas i e n o f) : (act a).LocksIn P := (noLock_act h).locksIn

theorem locksIn_lock {i : Nat} (hi : P i) : (COpt.lock i : Prog α _).LocksIn P := by
  refine LocksIn.bind ⟨?_, fun _ => trivial⟩ fun _ => trivial
  rintro j e n o f ⟨⟩
  exact hi

theorem locksIn_tryLock {i : Nat} (hi : P i) : (COpt.tryLock i : Prog α _).LocksIn P := by
  refine LocksIn.bind ⟨?_, fun _ => trivial⟩ fun _ => trivial
  rintro j e n o f ⟨⟩
  exact hi

theorem locksIn_unlock (i : Nat) : (COpt.unlock i : Prog α _).LocksIn P := locksIn_act (by simp)

theorem locksIn_clone {i : Nat} (hi : P i) : (COpt.cloneIntoOption i : Prog α _).LocksIn P := by
  refine LocksIn.bind (locksIn_lock hi) fun b => ?_
  cases b
  · exact trivial
  · exact LocksIn.bind (locksIn_act (by simp)) fun _ => LocksIn.bind (locksIn_unlock _) fun _ => trivial

theorem locksIn_optMap {i : Nat} (hi : P i) (f : α → Option β) : (COpt.map f i).LocksIn P := by
  refine LocksIn.bind (locksIn_lock hi) fun b => ?_
  cases b
  · exact trivial
  · refine LocksIn.bind (locksIn_act (by simp)) fun v => LocksIn.bind (locksIn_unlock _) fun _ => ?_
    rcases f v with _ | b <;> trivial

theorem locksIn_isSomeAnd {i : Nat} (hi : P i) (f : α → Option Bool) : (COpt.isSomeAnd f i).LocksIn P := by
  refine LocksIn.bind (locksIn_lock hi) fun b => ?_
  cases b
  · exact trivial
  · refine LocksIn.bind (locksIn_act (by simp)) fun v => LocksIn.bind (locksIn_unlock _) fun _ => ?_
    rcases f v with _ | b <;> trivial

theorem locksIn_optReplace {i : Nat} (hi : P i) (v : α) : (COpt.replace i v).LocksIn P := by
  refine LocksIn.bind (locksIn_lock hi) fun b => ?_
  cases b
  · exact trivial
  · exact LocksIn.bind (locksIn_act (by simp)) fun _ => LocksIn.bind (locksIn_act (by simp)) fun _ =>
      LocksIn.bind (locksIn_unlock _) fun _ => trivial

theorem locksIn_setSome {i : Nat} (hi : P i) (v : α) : (COpt.setSome i v).LocksIn P := by
  refine LocksIn.bind (locksIn_lock hi) fun b => ?_
  cases b
  · exact trivial
  · exact LocksIn.bind (locksIn_act (by simp)) fun _ => LocksIn.bind (locksIn_unlock _) fun _ => trivial

theorem locksIn_updateIfSome {i : Nat} (hi : P i) (f : α → α × Bool) : (COpt.updateIfSome f i).LocksIn P := by
  refine LocksIn.bind (locksIn_lock hi) fun b => ?_
  cases b
  · exact trivial
  · refine LocksIn.bind (locksIn_act (by simp)) fun v => LocksIn.bind (locksIn_act (by simp)) fun _ =>
      LocksIn.bind (locksIn_unlock _) fun _ => ?_
    split <;> trivial

theorem locksIn_elCloned {i : Nat} (hi : P i) : (Elem.cloned i : Prog α _).LocksIn P := by
  refine LocksIn.bind (locksIn_clone hi) fun o => ?_
  cases o <;> trivial

theorem locksIn_elMap {i : Nat} (hi : P i) (f : α → Option β) : (Elem.map f i).LocksIn P := by
  refine LocksIn.bind (locksIn_optMap hi f) fun o => ?_
  cases o <;> trivial

theorem locksIn_elReplace {i : Nat} (hi : P i) (v : α) : (Elem.replace i v).LocksIn P := by
  refine LocksIn.bind (locksIn_optReplace hi v) fun o => ?_
  cases o <;> trivial

theorem locksIn_elSet {i : Nat} (hi : P i) (v : α) : (Elem.set i v).LocksIn P := by
  refine LocksIn.bind (locksIn_setSome hi v) fun o => ?_
  cases o <;> trivial

theorem locksIn_elUpdate {i : Nat} (hi : P i) (f : α → α × Bool) : (Elem.update f i).LocksIn P := by
  refine LocksIn.bind (locksIn_updateIfSome hi f) fun o => ?_
  cases o <;> trivial

theorem locksIn_loopCloned : ∀ {is : List Nat}, (∀ i, i ∈ is → P i) → (Loop.cloned is : Prog α _).LocksIn P := by
  intro is
  induction is with
  | nil => exact fun _ => trivial
  | cons i is ih =>
    intro h
    exact LocksIn.bind (locksIn_elCloned (h i List.mem_cons_self)) fun _ =>
      LocksIn.bind (ih fun j hj => h j (List.mem_cons_of_mem _ hj)) fun _ => trivial

theorem locksIn_loopMap (f : α → Option β) : ∀ {is : List Nat}, (∀ i, i ∈ is → P i) → (Loop.map f is).LocksIn P := by
  intro is
  induction is with
  | nil => exact fun _ => trivial
  | cons i is ih =>
    intro h
    exact LocksIn.bind (locksIn_elMap (h i List.mem_cons_self) f) fun _ =>
      LocksIn.bind (ih fun j hj => h j (List.mem_cons_of_mem _ hj)) fun _ => trivial

theorem locksIn_loopFilter (f : α → Option Bool) : ∀ {is : List Nat}, (∀ i, i ∈ is → P i) →
    (Loop.filter f is).LocksIn P := by
  intro is
  induction is with
  | nil => exact fun _ => trivial
  | cons i is ih =>
    intro h
    exact LocksIn.bind (locksIn_elMap (h i List.mem_cons_self) f) fun _ =>
      LocksIn.bind (ih fun j hj => h j (List.mem_cons_of_mem _ hj)) fun _ => trivial

theorem locksIn_loopFold (f : β → α → Option β) : ∀ {is : List Nat} (b : β), (∀ i, i ∈ is → P i) →
    (Loop.fold f b is).LocksIn P := by
  intro is
  induction is with
  | nil => exact fun _ _ => trivial
  | cons i is ih =>
    intro b h
    exact LocksIn.bind (locksIn_elMap (h i List.mem_cons_self) _) fun _ => ih _ fun j hj => h j (List.mem_cons_of_mem _ hj)

theorem locksIn_loopVisit (f : β → α → Option (β × Bool)) : ∀ {is : List Nat} (b : β), (∀ i, i ∈ is → P i) →
    (Loop.visit f b is).LocksIn P := by
  intro is
  induction is with
  | nil => exact fun _ _ => trivial
  | cons i is ih =>
    intro b h
    refine LocksIn.bind (locksIn_elMap (h i List.mem_cons_self) _) fun r => ?_
    split
    · exact ih _ fun j hj => h j (List.mem_cons_of_mem _ hj)
    · trivial

theorem locksIn_loopReduce (f : α → α → Option α) {is : List Nat} (h : ∀ i, i ∈ is → P i) :
    (Loop.reduce f is).LocksIn P := by
  cases is with
  | nil => trivial
  | cons i is =>
    exact LocksIn.bind (locksIn_elCloned (h i List.mem_cons_self)) fun _ =>
      LocksIn.bind (locksIn_loopFold f _ fun j hj => h j (List.mem_cons_of_mem _ hj)) fun _ => trivial

theorem locksIn_loopPosition (veq : α → α → Bool) (v : α) : ∀ {is : List Nat} (k : Nat), (∀ i, i ∈ is → P i) →
    (Loop.position veq v k is).LocksIn P := by
  intro is
  induction is with
  | nil => exact fun _ _ => trivial
  | cons i is ih =>
    intro k h
    refine LocksIn.bind (locksIn_elMap (h i List.mem_cons_self) _) fun b => ?_
    cases b
    · exact ih _ fun j hj => h j (List.mem_cons_of_mem _ hj)
    · trivial

theorem locksIn_loopFill (v : α) : ∀ {is : List Nat}, (∀ i, i ∈ is → P i) → (Loop.fill v is).LocksIn P := by
  intro is
  induction is with
  | nil => exact fun _ => trivial
  | cons i is ih =>
    intro h
    exact LocksIn.bind (locksIn_elSet (h i List.mem_cons_self) v) fun _ => ih fun j hj => h j (List.mem_cons_of_mem _ hj)

theorem locksIn_loopFillWith (f : Nat → Option α) : ∀ {is : List Nat} (k : Nat), (∀ i, i ∈ is → P i) →
    (Loop.fillWith f k is).LocksIn P := by
  intro is
  induction is with
  | nil => exact fun _ _ => trivial
  | cons i is ih =>
    intro k h
    unfold Loop.fillWith
    rcases f k with _ | v
    · trivial
    · exact LocksIn.bind (locksIn_elSet (h i List.mem_cons_self) v) fun _ =>
        ih _ fun j hj => h j (List.mem_cons_of_mem _ hj)

theorem locksIn_loopEqList (veq : α → α → Option Bool) : ∀ {is : List Nat} (vs : List α), (∀ i, i ∈ is → P i) →
    (Loop.eqList veq is vs).LocksIn P := by
  intro is
  induction is with
  | nil => intro vs _; cases vs <;> trivial
  | cons i is ih =>
    intro vs h
    cases vs with
    | nil => trivial
    | cons v vs =>
      refine LocksIn.bind (locksIn_isSomeAnd (h i List.mem_cons_self) _) fun b => ?_
      cases b
      · trivial
      · exact ih _ fun j hj => h j (List.mem_cons_of_mem _ hj)

theorem locksIn_debugRest (sh : α → String) : ∀ {is : List Nat} (s : String), (∀ i, i ∈ is → P i) →
    (Loop.debugRest sh s is).LocksIn P := by
  intro is
  induction is with
  | nil => exact fun _ _ => trivial
  | cons i is ih =>
    intro s h
    exact LocksIn.bind (locksIn_elMap (h i List.mem_cons_self) _) fun _ => ih _ fun j hj => h j (List.mem_cons_of_mem _ hj)

theorem locksIn_loopDebug (sh : α → String) {is : List Nat} (h : ∀ i, i ∈ is → P i) : (Loop.debug sh is).LocksIn P := by
  cases is with
  | nil => trivial
  | cons i is =>
    exact LocksIn.bind (locksIn_elMap (h i List.mem_cons_self) _) fun _ =>
      LocksIn.bind (locksIn_debugRest sh _ fun j hj => h j (List.mem_cons_of_mem _ hj)) fun _ => trivial

theorem locksIn_colGet {i : Nat} {f : Option Nat → Prog α ρ} (hs : (f (some i)).LocksIn P) (hn : (f none).LocksIn P) :
    ((Col.get i).bind f).LocksIn P := by
  refine ⟨by simp, fun c => ?_⟩
  change (f (if i < c then some i else none)).LocksIn P
  split
  · exact hs
  · exact hn

theorem locksIn_mutHandle (mm : MutMode) {i : Nat} (hi : P i) : (CVec.mutHandle mm i : Prog α _).LocksIn P := by
  refine LocksIn.bind noLock_len.locksIn fun n => ?_
  split
  · refine locksIn_colGet (LocksIn.bind ?_ fun _ => trivial) trivial
    cases mm
    · exact locksIn_lock hi
    · exact locksIn_tryLock hi
  · trivial

theorem locksIn_swap (mm : MutMode) {i j : Nat} (hi : P i) (hj : P j) : (CVec.swap mm i j : Prog α _).LocksIn P := by
  refine LocksIn.bind (locksIn_mutHandle mm hi) fun x => LocksIn.bind (locksIn_mutHandle mm hj) fun y => ?_
  rcases x with _ | x <;> rcases y with _ | y
  · trivial
  · exact LocksIn.bind (locksIn_unlock _) fun _ => trivial
  · exact LocksIn.bind (locksIn_unlock _) fun _ => trivial
  · exact LocksIn.bind (locksIn_act (by simp)) fun _ => LocksIn.bind (locksIn_unlock _) fun _ =>
      LocksIn.bind (locksIn_unlock _) fun _ => trivial

theorem mem_slc {s : Slc} {i : Nat} (h : i ∈ s.iter) : s.a ≤ i ∧ i < s.a + s.len := by
  simpa [Slc.iter, positions, List.mem_range'_1] using h

/-- A function locks only the elements it uses. -/
theorem Op.locksIn (op : Op α β) : op.prog.LocksIn fun i => op.Uses i := by
  by_cases hl : op.Locks
  swap
  · exact (Op.noLock hl).locksIn
  cases op <;> first | exact hl.elim | exact LocksIn.all | refine LocksIn.bind ?_ fun _ => trivial
  case getCloned i =>
    refine LocksIn.bind noLock_reservedLen.locksIn fun n => ?_
    split
    · exact locksIn_colGet (locksIn_clone rfl) trivial
    · trivial
  case swap mm i j => exact locksIn_swap mm (.inl rfl) (.inr rfl)
  case elCloned => exact locksIn_elCloned rfl
  case elMap => exact locksIn_elMap (P := fun i => i = _) rfl _
  case elReplace => exact locksIn_elReplace (P := fun i => i = _) rfl _
  case elSet => exact locksIn_elSet (P := fun i => i = _) rfl _
  case elUpdate => exact locksIn_elUpdate (P := fun i => i = _) rfl _
  case elEq => exact locksIn_elMap (P := fun i => i = _) rfl _
  case slGetCloned s i =>
    unfold Slc.getCloned
    split
    · exact locksIn_colGet (LocksIn.bind (locksIn_elCloned rfl) fun _ => trivial) trivial
    · trivial
  case slIterCloned s => exact locksIn_loopCloned fun i => mem_slc
  case slMap s f => exact locksIn_loopMap _ fun i => mem_slc
  case slFilter s f => exact locksIn_loopFilter _ fun i => mem_slc
  case slFold s f b => exact locksIn_loopFold _ _ fun i => mem_slc
  case slVisit s f b => exact locksIn_loopVisit _ _ fun i => mem_slc
  case slReduce s f => exact locksIn_loopReduce _ fun i => mem_slc
  case slIndexOf s veq v => exact locksIn_loopPosition _ _ _ fun i => mem_slc
  case slContains s veq v => exact LocksIn.bind (locksIn_loopPosition _ _ _ fun i => mem_slc) fun _ => trivial
  case slEqList s veq vs => exact locksIn_loopEqList _ _ fun i => mem_slc
  case slDebug s sh => exact locksIn_loopDebug _ fun i => mem_slc
  case slSwap mm s i j =>
    unfold Slc.swap Slc.idx
    split
    · rename_i h1 h2
      split at h1 <;> split at h2 <;> simp at h1 h2
      subst h1 h2
      exact locksIn_swap mm (.inl rfl) (.inr rfl)
    · trivial
  case slFill s v => exact locksIn_loopFill _ fun i => mem_slc
  case slFillWith s f => exact locksIn_loopFillWith _ _ fun i => mem_slc

end

theorem Op.nested_iff {op : Op α β} {i j : Nat} : op.Nested i j ↔ op.SwapsWith i j := by
  cases op <;> try exact Iff.rfl
  case swap mm a b => cases mm <;> exact Iff.rfl
  case slSwap mm s a b => cases mm <;> exact Iff.rfl

theorem Reach.locksIn {κ : Cfg α β} (h : Reach m l κ) {c : Cid} {r : Rec α β} {p : Prog α (Ret α β)}
    (hc : κ.calls c = some r) (hr : r.status = .running p) : p.LocksIn fun i => r.op.Uses i := by
  induction h generalizing c r p with
  | init => simp [Cfg.init] at hc
  | @step κ κ' hre hs ih =>
    cases hs with
    | invoke op hn hp =>
      simp only [upd_apply] at hc
      split at hc
      · simp only [Option.some.injEq] at hc
        subst hc
        simp only [Status.running.injEq] at hr
        subst hr
        exact op.locksIn
      · exact ih hc hr
    | act c' r' a again k w' b hc' hr' he' =>
      by_cases hcc : c = c'
      · subst hcc
        have h1 : some { r' with status := _ } = some r := setStatus_self.symm.trans hc
        simp only [Option.some.injEq] at h1
        subst h1
        simp only [Status.running.injEq] at hr
        subst hr
        have := ih hc' hr'
        split
        · exact this
        · exact this.2 b
      · exact ih ((setStatus_other hcc).symm.trans hc) hr
    | ub c' r' a again k hc' hr' he' => exact ih hc hr
    | ret c' r' x hc' hr' =>
      by_cases hcc : c = c'
      · subst hcc
        have h1 : some { r' with status := _ } = some r := setStatus_self.symm.trans hc
        simp only [Option.some.injEq] at h1
        subst h1
        cases hr
      · exact ih ((setStatus_other hcc).symm.trans hc) hr
    | panic c' r' x hc' hr' =>
      by_cases hcc : c = c'
      · subst hcc
        have h1 : some { r' with status := _ } = some r := setStatus_self.symm.trans hc
        simp only [Option.some.injEq] at h1
        subst h1
        cases hr
      · exact ih ((setStatus_other hcc).symm.trans hc) hr
    | reserveMax n hidle => exact ih hc hr

/-- Only a successful compare-exchange makes the call hold a further element. -/
theorem exec_locks {w w' : World α} {c : Cid} {a : Act α} {b : a.Resp} (he : w.exec c a = some (w', b)) {i : Nat}
    (h : w.holder i ≠ some c) (h' : w'.holder i = some c) :
    ∃ x n o f, a = .stCas i x n o f ∧ w.mem.st i = x := by
  unfold World.exec at he
  split at he
  · cases he
  · rename_i m' b' hm
    simp only [Option.some.injEq, Prod.mk.injEq] at he
    obtain ⟨rfl, rfl⟩ := he
    simp only at h'
    cases a <;> try exact (h h').elim
    case stCas j x n o f _ =>
      simp only [Act.exec] at hm
      split at hm
      · split at hm
        · rename_i hx
          simp only [Option.some.injEq, Prod.mk.injEq] at hm
          obtain ⟨-, rfl⟩ := hm
          by_cases hij : i = j
          · subst hij; exact ⟨x, n, o, f, rfl, hx⟩
          · simp [Act.holderNext, upd_apply, hij] at h'
            exact (h h').elim
        · simp only [Option.some.injEq, Prod.mk.injEq] at hm
          obtain ⟨-, rfl⟩ := hm
          simp [Act.holderNext] at h'
          exact (h h').elim
      · cases hm
    case stStore j x o _ =>
      simp only [Act.holderNext, upd_apply] at h'
      split at h'
      · cases h'
      · exact (h h').elim

/-- The call that holds an element has locked it, and the element has been locked ever since. -/
theorem Exec.hasLocked {n : Nat} {κ : Nat → Cfg α β} (h : Exec m l n κ) (hm : InitMem m l) {c : Cid} {i : Nat} :
    ∀ {t}, t ≤ n → (κ t).w.holder i = some c → HasLocked κ t c i := by
  intro t
  induction t with
  | zero => intro _ hi; rw [h.init] at hi; cases hi
  | succ t ih =>
    intro ht hi
    have hI := h.inv hm (by omega : t ≤ n)
    have hst : (κ (t + 1)).w.mem.st i = .RESERVED := ((h.inv hm ht).inv.lock i).2 (by rw [hi]; rfl)
    by_cases hd : (κ t).w.holder i = some c
    · obtain ⟨u, h1, h2, h3, h4, h5⟩ := ih (by omega) hd
      refine ⟨u, by omega, h2, h3, h4, fun v hv hvt => ?_⟩
      rcases Nat.lt_or_ge v (t + 1) with hlt | hge
      · exact h5 v hv (by omega)
      · rwa [show v = t + 1 by omega]
    · have hstep := h.next t (by omega)
      generalize hκ' : κ (t + 1) = κ' at *
      generalize hκ : κ t = κ0 at *
      cases hstep with
      | invoke op hn hp => exact (hd hi).elim
      | act e r a again k w' b hc hr he =>
        obtain ⟨hsafe, -⟩ := hI.running hc hr
        obtain ⟨hpre, -⟩ := hsafe _ hI.inv (.refl _ _)
        have hrely := (exec_inv hI.inv hpre he).2
        by_cases hce : c = e
        · subst hce
          obtain ⟨x, n', o, f, rfl, hso⟩ := exec_locks he hd hi
          obtain ⟨-, rfl, rfl⟩ := hpre
          refine ⟨t, Nat.lt_succ_self t, ⟨o, f, ?_⟩, ?_, by rw [hκ]; exact hso, fun v hv hvt => ?_⟩
          · rw [hκ]
            obtain ⟨op, ct, st, s⟩ := r
            simp only at hr
            subst hr
            exact ⟨op, ct, st, again, k, hc⟩
          · rw [hκ, hκ']
            exact ⟨r, hc, .inl ⟨_, again, k, w', _, hr, he, rfl⟩⟩
          · rw [show v = t + 1 by omega, hκ']
            exact hst
        · exact (hd ((hrely c hce).nohold i hi)).elim
      | ub c r a again k hc hr he => exact (hd hi).elim
      | ret c r x hc hr => exact (hd hi).elim
      | panic c r x hc hr => exact (hd hi).elim
      | reserveMax n hidle => exact (hd hi).elim

end Verif
