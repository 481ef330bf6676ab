import Verif.Model.Solo
import Verif.Spec.ListSpec
import Verif.Proof.Views

/-!
# Programs running alone

Helper file (no property statements): what each function does to a memory that represents a list.
-/

namespace Verif

variable {α β ρ ρ' : Type}

/-- The memory represents the list `l`, with `r ≥ l.length` positions reserved (those from `l.length` on are still to be
written by the only running call). -/
structure Mem.Half (m : Mem α) (l : List α) (r : Nat) : Prop where
  reserved : m.reserved = r
  written : m.written ≤ l.length
  st : ∀ i, m.st i = if i < l.length then .SOME else .NONE
  val : ∀ i, m.val i = l[i]?
  cap : l.length ≤ m.cap
  alloc : m.alloc = m.cap
  growing : m.growing = false
  good : m.pol.good m.cap m.maxCap

/-- The memory represents the list `l`. -/
abbrev Mem.Rep (m : Mem α) (l : List α) : Prop := m.Half l l.length

theorem InitMem.rep {m : Mem α} {l : List α} (h : InitMem m l) : m.Rep l :=
  ⟨h.reserved, Nat.le_of_eq h.written, h.st, h.val, h.cap, h.alloc, h.growing, h.good⟩

theorem Mem.Half.holds {m : Mem α} {l : List α} {r : Nat} (h : m.Half l r) : m.Holds l := by
  intro i
  rw [Mem.content, h.st, h.val]
  by_cases hi : i < l.length
  · simp [hi]
  · simp [hi]

/-- The memory after the value of a position has been replaced. -/
def Mem.put (m : Mem α) (i : Nat) (v : α) : Mem α := { m with val := upd m.val i (some v) }

theorem Mem.Half.put {m : Mem α} {l : List α} {r : Nat} (h : m.Half l r) {i : Nat} (hi : i < l.length) (v : α) :
    (m.put i v).Half (l.set i v) r := by
  refine ⟨h.reserved, by rw [List.length_set]; exact h.written, fun j => by rw [List.length_set]; exact h.st j,
    fun j => ?_, by rw [List.length_set]; exact h.cap, h.alloc, h.growing, h.good⟩
  simp only [Mem.put, upd_apply]
  split
  · next hj => subst hj; rw [List.getElem?_set_self hi]
  · next hj => rw [List.getElem?_set_ne (fun h => hj h.symm)]; exact h.val j

namespace Prog

theorem solo_bind {p : Prog α ρ} {m m' : Mem α} {x : ρ} (h : p.solo m = (.done (.ok x), m')) (f : ρ → Prog α ρ') :
    (p.bind f).solo m = (f x).solo m' := by
  induction p generalizing m with
  | ret y =>
    simp only [solo, Prod.mk.injEq, Out.done.injEq, Except.ok.injEq] at h
    obtain ⟨rfl, rfl⟩ := h
    rfl
  | panic k => simp [solo] at h
  | step a again k ih =>
    rw [step_bind]
    simp only [solo] at h ⊢
    rcases hx : a.exec m with _ | ⟨m1, b⟩
    · rw [hx] at h; simp at h
    · rw [hx] at h
      simp only at h ⊢
      split at h
      · simp at h
      · next hb => rw [if_neg hb]; exact ih b h

theorem solo_bind_panic {p : Prog α ρ} {m m' : Mem α} {k : PanicKind} (h : p.solo m = (.done (.error k), m'))
    (f : ρ → Prog α ρ') : (p.bind f).solo m = (.done (.error k), m') := by
  induction p generalizing m with
  | ret y => simp [solo] at h
  | panic k =>
    simp only [solo, Prod.mk.injEq, Out.done.injEq, Except.error.injEq] at h
    obtain ⟨rfl, rfl⟩ := h
    rfl
  | step a again k ih =>
    rw [step_bind]
    simp only [solo] at h ⊢
    rcases hx : a.exec m with _ | ⟨m1, b⟩
    · rw [hx] at h; simp at h
    · rw [hx] at h
      simp only at h ⊢
      split at h
      · simp at h
      · next hb => rw [if_neg hb]; exact ih b h

theorem solo_act {a : Act α} {m m' : Mem α} {b : a.Resp} (h : a.exec m = some (m', b)) :
    (act a).solo m = (.done (.ok b), m') := by
  simp [act, solo, h]

theorem solo_spin {a : Act α} {m m' : Mem α} {b : a.Resp} {again : a.Resp → Bool} (h : a.exec m = some (m', b))
    (hb : again b = false) : (spin a again).solo m = (.done (.ok b), m') := by
  simp [spin, solo, h, hb]

end Prog

open Prog

section

variable {m : Mem α} {l : List α} {r : Nat}

/-! ## Elements -/

/-- Position `i` holds the value `v` and is not locked. -/
structure Mem.Val (m : Mem α) (i : Nat) (v : α) : Prop where
  cap : i < m.cap
  st : m.st i = .SOME
  val : m.val i = some v

theorem Mem.Half.at (h : m.Half l r) {i : Nat} {v : α} (hv : l[i]? = some v) : m.Val i v := by
  have hi : i < l.length := (List.getElem?_eq_some_iff.1 hv).1
  exact ⟨Nat.lt_of_lt_of_le hi h.cap, by rw [h.st, if_pos hi], by rw [h.val, hv]⟩

/-- The memory while position `i` is locked. -/
def Mem.lock (m : Mem α) (i : Nat) : Mem α := { m with st := upd m.st i .RESERVED }

theorem Mem.unlock_lock {m : Mem α} {i : Nat} {v : α} (h : m.Val i v) :
    { m.lock i with st := upd (m.lock i).st i .SOME } = m := by
  have : upd (upd m.st i .RESERVED) i .SOME = m.st := by
    funext j
    by_cases hj : j = i
    · subst hj; simp [h.st]
    · simp [hj]
  simp [Mem.lock, this]

theorem Mem.unlock_put {m : Mem α} {i : Nat} {v u : α} (h : m.Val i v) :
    { (m.lock i).put i u with st := upd ((m.lock i).put i u).st i .SOME } = m.put i u := by
  have : upd (upd m.st i .RESERVED) i .SOME = m.st := by
    funext j
    by_cases hj : j = i
    · subst hj; simp [h.st]
    · simp [hj]
  simp [Mem.lock, Mem.put, this]

theorem solo_lock {i : Nat} {v : α} (h : m.Val i v) : (COpt.lock i : Prog α Bool).solo m = (.done (.ok true), m.lock i) := by
  unfold COpt.lock
  rw [bind_eq, solo_bind (solo_spin (m' := m.lock i) (b := none) (by simp [Act.exec, h.cap, h.st, Mem.lock]) rfl)]
  rfl

theorem solo_tryLock {i : Nat} {v : α} (h : m.Val i v) :
    (COpt.tryLock i : Prog α Bool).solo m = (.done (.ok true), m.lock i) := by
  unfold COpt.tryLock
  rw [bind_eq, solo_bind (solo_act (m' := m.lock i) (b := none) (by simp [Act.exec, h.cap, h.st, Mem.lock]))]
  rfl

theorem Mem.Val.exec_read {i : Nat} {v : α} (h : m.Val i v) : (Act.valRead i).exec (m.lock i) = some (m.lock i, v) := by
  simp [Act.exec, Mem.lock, h.cap, h.val]

theorem Mem.Val.exec_unlock {i : Nat} {v : α} (h : m.Val i v) :
    (Act.stStore i .SOME .release).exec (m.lock i) = some (m, ()) := by
  have := Mem.unlock_lock h
  simp only [Act.exec]
  rw [if_pos (show i < (m.lock i).cap from h.cap)]
  rw [this]

theorem Mem.Val.exec_write {i : Nat} {v u : α} (h : m.Val i v) :
    (Act.valWrite i u).exec (m.lock i) = some ((m.lock i).put i u, ()) := by
  simp [Act.exec, Mem.lock, h.cap, Mem.put]

theorem Mem.Val.exec_unlock_put {i : Nat} {v u : α} (h : m.Val i v) :
    (Act.stStore i .SOME .release).exec ((m.lock i).put i u) = some (m.put i u, ()) := by
  have := Mem.unlock_put (u := u) h
  simp only [Act.exec]
  rw [if_pos (show i < ((m.lock i).put i u).cap from h.cap)]
  rw [this]

theorem solo_cloneIntoOption {i : Nat} {v : α} (h : m.Val i v) :
    (COpt.cloneIntoOption i).solo m = (.done (.ok (some v)), m) := by
  unfold COpt.cloneIntoOption
  rw [bind_eq, solo_bind (solo_lock h)]
  simp only [if_true]
  rw [bind_eq, solo_bind (solo_act h.exec_read), bind_eq, COpt.unlock, solo_bind (solo_act h.exec_unlock)]
  rfl

theorem solo_map {i : Nat} {v : α} (h : m.Val i v) (f : α → Option β) :
    (COpt.map f i).solo m = (.done (match f v with | some b => .ok (some b) | none => .error .userCode), m) := by
  unfold COpt.map
  rw [bind_eq, solo_bind (solo_lock h)]
  simp only [if_true]
  rw [bind_eq, solo_bind (solo_act h.exec_read), bind_eq, COpt.unlock, solo_bind (solo_act h.exec_unlock)]
  cases f v <;> rfl

theorem solo_isSomeAnd {i : Nat} {v : α} (h : m.Val i v) (f : α → Option Bool) :
    (COpt.isSomeAnd f i).solo m = (.done (match f v with | some b => .ok b | none => .error .userCode), m) := by
  unfold COpt.isSomeAnd
  rw [bind_eq, solo_bind (solo_lock h)]
  simp only [if_true]
  rw [bind_eq, solo_bind (solo_act h.exec_read), bind_eq, COpt.unlock, solo_bind (solo_act h.exec_unlock)]
  cases f v <;> rfl

theorem solo_cloned {i : Nat} {v : α} (h : m.Val i v) : (Elem.cloned i).solo m = (.done (.ok v), m) := by
  unfold Elem.cloned
  rw [bind_eq, solo_bind (solo_cloneIntoOption h)]
  rfl

theorem solo_elemMap {i : Nat} {v : α} (h : m.Val i v) (f : α → Option β) :
    (Elem.map f i).solo m = (.done (closure (f v) id), m) := by
  unfold Elem.map
  rcases hf : f v with _ | b
  · have := solo_map h f
    rw [hf] at this
    rw [bind_eq, solo_bind_panic this]
    rfl
  · have := solo_map h f
    rw [hf] at this
    rw [bind_eq, solo_bind this]
    rfl

theorem solo_eqVal {i : Nat} {v : α} (h : m.Val i v) (veq : α → α → Bool) (t : α) :
    (Elem.eqVal veq t i).solo m = (.done (.ok (veq v t)), m) := by
  unfold Elem.eqVal
  rw [solo_elemMap h]
  rfl

theorem solo_replace {i : Nat} {v : α} (h : m.Val i v) (u : α) :
    (Elem.replace i u).solo m = (.done (.ok v), m.put i u) := by
  have : (COpt.replace i u).solo m = (.done (.ok (some v)), m.put i u) := by
    unfold COpt.replace
    rw [bind_eq, solo_bind (solo_lock h)]
    simp only [if_true]
    rw [bind_eq, solo_bind (solo_act h.exec_read), bind_eq, solo_bind (solo_act h.exec_write), bind_eq, COpt.unlock,
      solo_bind (solo_act h.exec_unlock_put)]
    rfl
  unfold Elem.replace
  rw [bind_eq, solo_bind this]
  rfl

theorem solo_set {i : Nat} {v : α} (h : m.Val i v) (u : α) :
    (Elem.set i u).solo m = (.done (.ok ()), m.put i u) := by
  have : (COpt.setSome i u).solo m = (.done (.ok true), m.put i u) := by
    unfold COpt.setSome
    rw [bind_eq, solo_bind (solo_lock h)]
    simp only [if_true]
    rw [bind_eq, solo_bind (solo_act h.exec_write), bind_eq, COpt.unlock,
      solo_bind (solo_act h.exec_unlock_put)]
    rfl
  unfold Elem.set
  rw [bind_eq, solo_bind this]
  rfl

theorem solo_update {i : Nat} {v : α} (h : m.Val i v) (f : α → α × Bool) :
    (Elem.update f i).solo m = (.done (if (f v).2 then .ok () else .error .userCode), m.put i (f v).1) := by
  have : (COpt.updateIfSome f i).solo m = (.done (if (f v).2 then .ok true else .error .userCode), m.put i (f v).1) := by
    unfold COpt.updateIfSome
    rw [bind_eq, solo_bind (solo_lock h)]
    simp only [if_true]
    rw [bind_eq, solo_bind (solo_act h.exec_read), bind_eq, solo_bind (solo_act h.exec_write), bind_eq, COpt.unlock,
      solo_bind (solo_act h.exec_unlock_put)]
    split <;> rfl
  unfold Elem.update
  by_cases hb : (f v).2
  · rw [if_pos hb] at this ⊢
    rw [bind_eq, solo_bind this]
    rfl
  · rw [if_neg hb] at this ⊢
    rw [bind_eq, solo_bind_panic this]

/-! ## Queries -/

/-- The memory after the length has been recorded. -/
def Mem.mark (m : Mem α) (n : Nat) : Mem α := { m with written := n }

theorem Mem.Half.mark (h : m.Half l r) {n : Nat} (hn : n ≤ l.length) : (m.mark n).Half l r :=
  ⟨h.reserved, hn, h.st, h.val, h.cap, h.alloc, h.growing, h.good⟩

theorem solo_settled (h : m.Half l r) : ∀ (k start : Nat), start + k = l.length →
    (CVec.settled start k : Prog α Nat).solo m = (.done (.ok l.length), m) := by
  intro k
  induction k with
  | zero => intro start hs; simp only [Nat.add_zero] at hs; subst hs; rfl
  | succ k ih =>
    intro start hs
    unfold CVec.settled
    have hst : m.st start = .SOME := by rw [h.st, if_pos (by omega)]
    rw [bind_eq, solo_bind (solo_act (m' := m) (b := CState.SOME)
      (by simp only [Act.exec]; rw [if_pos (by have := h.cap; omega), hst]))]
    simp only [if_true]
    exact ih (start + 1) (by omega)

theorem solo_len (h : m.Rep l) : (CVec.len : Prog α Nat).solo m = (.done (.ok l.length), m.mark l.length) := by
  unfold CVec.len
  rw [bind_eq, solo_bind (solo_act (m' := m) (b := m.written) rfl), bind_eq,
    solo_bind (solo_act (m' := m) (b := m.cap) rfl), bind_eq, solo_bind (solo_act (m' := m) (b := m.reserved) rfl)]
  have hu : (if m.reserved ≤ m.cap then m.reserved else m.cap) = l.length := by
    rw [h.reserved, if_pos h.cap]
  simp only
  rw [bind_eq, solo_bind (solo_settled h _ m.written (by rw [hu]; have := h.written; omega)), bind_eq,
    solo_bind (solo_act (m' := m.mark l.length) (b := ())
      (by simp [Act.exec, Mem.mark, Nat.max_eq_right h.written]))]
  rfl

theorem solo_reservedLen (h : m.Rep l) : (CVec.reservedLen : Prog α Nat).solo m = (.done (.ok l.length), m) := by
  unfold CVec.reservedLen
  rw [bind_eq, solo_bind (solo_act (m' := m) (b := m.reserved) rfl), bind_eq,
    solo_bind (solo_act (m' := m) (b := m.cap) rfl)]
  have hu : (if m.reserved ≤ m.cap then m.reserved else m.cap) = l.length := by
    rw [h.reserved, if_pos h.cap]
  simp only [pure_eq, Prog.solo, hu]

theorem solo_colGet (i : Nat) : (Col.get i : Prog α (Option Nat)).solo m =
    (.done (.ok (if i < m.cap then some i else none)), m) := by
  unfold Col.get
  rw [bind_eq, solo_bind (solo_act (m' := m) (b := m.cap) rfl)]
  rfl

theorem solo_iter (h : m.Rep l) :
    (CVec.iter : Prog α (List Nat)).solo m = (.done (.ok (List.range' 0 l.length)), m.mark l.length) := by
  unfold CVec.iter
  rw [bind_eq, solo_bind (solo_len h)]
  rfl

theorem solo_get (h : m.Rep l) (i : Nat) :
    (CVec.get i : Prog α (Option Nat)).solo m = (.done (.ok (List.range l.length)[i]?), m.mark l.length) := by
  unfold CVec.get
  rw [bind_eq, solo_bind (solo_len h)]
  by_cases hi : i < l.length
  · simp only [if_pos hi]
    rw [solo_colGet, if_pos (show i < (m.mark l.length).cap from Nat.lt_of_lt_of_le hi h.cap),
      List.getElem?_range hi]
  · simp only [if_neg hi]
    rw [List.getElem?_eq_none (by simpa using hi)]
    rfl

theorem solo_getCloned (h : m.Rep l) (i : Nat) : (CVec.getCloned i).solo m = (.done (.ok l[i]?), m) := by
  unfold CVec.getCloned
  rw [bind_eq, solo_bind (solo_reservedLen h)]
  by_cases hi : i < l.length
  · simp only [if_pos hi]
    have h1 := solo_colGet (m := m) i
    rw [if_pos (Nat.lt_of_lt_of_le hi h.cap)] at h1
    rw [bind_eq, solo_bind h1]
    simp only
    rw [solo_cloneIntoOption (h.at (List.getElem?_eq_getElem hi)), List.getElem?_eq_getElem hi]
  · simp only [if_neg hi]
    rw [List.getElem?_eq_none (by omega)]
    rfl

theorem solo_slice (h : m.Rep l) (r : Rng) :
    (CVec.slice r : Prog α Slc).solo m =
      (.done (.ok ((⟨0, l.length⟩ : Slc).slice r)), m.mark l.length) := by
  unfold CVec.slice
  rw [bind_eq, solo_bind (solo_len h)]
  simp only [pure_eq, Prog.solo, Slc.slice, Nat.zero_add]

theorem mark_mark (m : Mem α) (n : Nat) : (m.mark n).mark n = m.mark n := rfl

theorem solo_asSlice (h : m.Rep l) :
    (CVec.asSlice : Prog α Slc).solo m = (.done (.ok ⟨0, l.length⟩), m.mark l.length) := by
  unfold CVec.asSlice
  rw [bind_eq, solo_bind (solo_len h), solo_slice (h.mark (Nat.le_refl _)), mark_mark]
  simp [Slc.slice, rangeLimits, Rng.co]

theorem solo_copt_getRaw {i : Nat} {v : α} (h : m.Val i v) (o : MOrd) :
    (COpt.getRaw o i : Prog α (Option Nat)).solo m = (.done (.ok (some i)), m) := by
  unfold COpt.getRaw
  rw [bind_eq, solo_bind (solo_act (m' := m) (b := CState.SOME)
    (by simp only [Act.exec]; rw [if_pos h.cap, h.st]))]
  rfl

theorem solo_getRaw (h : m.Rep l) (o : MOrd) (i : Nat) :
    (CVec.getRaw o i : Prog α (Option Nat)).solo m = (.done (.ok (List.range l.length)[i]?), m) := by
  unfold CVec.getRaw
  rw [bind_eq, solo_bind (solo_reservedLen h)]
  by_cases hi : i < l.length
  · simp only [if_pos hi]
    have h1 := solo_colGet (m := m) i
    rw [if_pos (Nat.lt_of_lt_of_le hi h.cap)] at h1
    rw [bind_eq, solo_bind h1]
    simp only
    rw [solo_copt_getRaw (h.at (List.getElem?_eq_getElem hi)), List.getElem?_range hi]
  · simp only [if_neg hi]
    rw [List.getElem?_eq_none (by simpa using hi)]
    rfl

theorem solo_index (h : m.Rep l) (i : Nat) : (CVec.index i : Prog α Nat).solo m =
    (.done (if i < l.length then .ok i else .error .outOfBounds), m.mark l.length) := by
  unfold CVec.index
  rw [bind_eq, solo_bind (solo_get h i)]
  by_cases hi : i < l.length
  · rw [List.getElem?_range hi, if_pos hi]; rfl
  · rw [List.getElem?_eq_none (by simpa using hi), if_neg hi]; rfl

/-! ## Loops over elements -/

/-- The positions `is` hold the values `vs`. -/
abbrev Mem.Vals (m : Mem α) (is : List Nat) (vs : List α) : Prop := List.Forall₂ m.Val is vs

theorem Mem.Half.vals (h : m.Half l r) : ∀ (k a : Nat), a + k ≤ l.length →
    m.Vals (List.range' a k) ((l.drop a).take k) := by
  intro k
  induction k with
  | zero => intro a _; simp [Mem.Vals]
  | succ k ih =>
    intro a hk
    rw [List.range'_succ, List.drop_eq_getElem_cons (by omega : a < l.length), List.take_succ_cons]
    exact .cons (h.at (List.getElem?_eq_getElem (by omega))) (ih (a + 1) (by omega))

theorem Mem.Half.vals_all (h : m.Half l r) : m.Vals (List.range' 0 l.length) l := by
  have := h.vals l.length 0 (by omega)
  simpa using this

theorem solo_loop_cloned {is : List Nat} {vs : List α} (h : m.Vals is vs) :
    (Loop.cloned is).solo m = (.done (.ok vs), m) := by
  induction h with
  | nil => rfl
  | cons hv _ ih =>
    unfold Loop.cloned
    rw [bind_eq, solo_bind (solo_cloned hv), bind_eq, solo_bind ih]
    rfl

theorem solo_loop_map {is : List Nat} {vs : List α} (h : m.Vals is vs) (f : α → Option β) :
    (Loop.map f is).solo m = (.done (closure (vs.mapM f) id), m) := by
  induction h with
  | nil => rfl
  | @cons i v is vs hv _ ih =>
    unfold Loop.map
    have h1 := solo_elemMap hv f
    rw [List.mapM_cons]
    rcases hf : f v with _ | b
    · rw [hf] at h1
      rw [bind_eq, solo_bind_panic h1]; rfl
    · rw [hf] at h1
      rw [bind_eq, solo_bind h1]
      rcases hg : vs.mapM f with _ | bs
      · rw [hg] at ih
        rw [bind_eq, solo_bind_panic ih]; rfl
      · rw [hg] at ih
        rw [bind_eq, solo_bind ih]; rfl

theorem solo_loop_filter {is : List Nat} {vs : List α} (h : m.Vals is vs) (f : α → Option Bool) :
    (Loop.filter f is).solo m =
      (.done (if ∀ v ∈ vs, (f v).isSome then .ok (chosen f vs is) else .error .userCode), m) := by
  induction h with
  | nil => rfl
  | @cons i v is vs hv _ ih =>
    unfold Loop.filter
    have h1 := solo_elemMap hv f
    rcases hf : f v with _ | b
    · rw [hf] at h1
      rw [bind_eq, solo_bind_panic h1, if_neg (fun h => by simpa [hf] using h v (by simp))]
    · rw [hf] at h1
      rw [bind_eq, solo_bind h1]
      by_cases hg : ∀ v ∈ vs, (f v).isSome
      · rw [if_pos hg] at ih
        have hall : ∀ w ∈ v :: vs, (f w).isSome := by simpa [hf] using hg
        rw [bind_eq, solo_bind ih, if_pos hall]
        cases b <;> simp [chosen, hf, Prog.solo]
      · rw [if_neg hg] at ih
        rw [bind_eq, solo_bind_panic ih, if_neg (fun h => hg fun v hv => h v (by simp [hv]))]

theorem solo_loop_fold {is : List Nat} {vs : List α} (h : m.Vals is vs) (f : β → α → Option β) (b : β) :
    (Loop.fold f b is).solo m = (.done (closure (vs.foldlM f b) id), m) := by
  induction h generalizing b with
  | nil => rfl
  | @cons i v is vs hv _ ih =>
    unfold Loop.fold
    have h1 := solo_elemMap hv (f b)
    rw [List.foldlM_cons]
    rcases hf : f b v with _ | b'
    · rw [hf] at h1
      rw [bind_eq, solo_bind_panic h1]; rfl
    · rw [hf] at h1
      rw [bind_eq, solo_bind h1]
      exact ih b'

theorem solo_loop_visit {is : List Nat} {vs : List α} (h : m.Vals is vs) (f : β → α → Option (β × Bool)) (b : β) :
    (Loop.visit f b is).solo m = (.done (closure (looped f b vs) id), m) := by
  induction h generalizing b with
  | nil => rfl
  | @cons i v is vs hv _ ih =>
    unfold Loop.visit looped
    have h1 := solo_elemMap hv (f b)
    rcases hf : f b v with _ | ⟨b', go⟩
    · rw [hf] at h1
      rw [bind_eq, solo_bind_panic h1]; rfl
    · rw [hf] at h1
      rw [bind_eq, solo_bind h1]
      cases go with
      | true => exact ih b'
      | false => rfl

theorem solo_loop_reduce {is : List Nat} {vs : List α} (h : m.Vals is vs) (f : α → α → Option α) :
    (Loop.reduce f is).solo m = (.done (closure (reduced f vs) id), m) := by
  cases h with
  | nil => rfl
  | @cons i v is vs hv h =>
    simp only [Loop.reduce]
    rw [bind_eq, solo_bind (solo_cloned hv)]
    have h1 := solo_loop_fold h f v
    rcases hf : vs.foldlM f v with _ | b
    · rw [hf] at h1
      rw [bind_eq, solo_bind_panic h1]; simp [reduced, hf, closure]
    · rw [hf] at h1
      rw [bind_eq, solo_bind h1]; simp [reduced, hf, closure, Prog.solo]

theorem solo_loop_position {is : List Nat} {vs : List α} (h : m.Vals is vs) (veq : α → α → Bool) (t : α) (k : Nat) :
    (Loop.position veq t k is).solo m = (.done (.ok ((vs.findIdx? fun v => veq v t).map (k + ·))), m) := by
  induction h generalizing k with
  | nil => rfl
  | @cons i v is vs hv _ ih =>
    unfold Loop.position
    rw [bind_eq, solo_bind (solo_eqVal hv veq t), List.findIdx?_cons]
    by_cases hb : veq v t
    · rw [if_pos hb, if_pos hb]; rfl
    · rw [if_neg hb, if_neg hb]
      rw [ih (k + 1), Option.map_map]
      congr 4
      funext j
      simp only [Function.comp]
      omega

theorem solo_loop_eqList {is : List Nat} {vs : List α} (h : m.Vals is vs) (veq : α → α → Option Bool) (ts : List α) :
    (Loop.eqList veq is ts).solo m = (.done (closure (equalLists veq vs ts) id), m) := by
  induction h generalizing ts with
  | nil => cases ts <;> rfl
  | @cons i v is vs hv _ ih =>
    cases ts with
    | nil => rfl
    | cons t ts =>
      unfold Loop.eqList
      have h1 := solo_isSomeAnd hv (fun x => veq x t)
      rcases hb : veq v t with _ | b
      · rw [hb] at h1
        rw [bind_eq, solo_bind_panic h1]
        simp [equalLists, hb, closure]
      · rw [hb] at h1
        rw [bind_eq, solo_bind h1]
        cases b with
        | true => simpa [equalLists, hb] using ih ts
        | false => simp [equalLists, hb, Prog.solo, closure]

theorem solo_debugRest {is : List Nat} {vs : List α} (h : m.Vals is vs) (sh : α → String) (s : String) :
    (Loop.debugRest sh s is).solo m = (.done (.ok (vs.foldl (fun s v => s ++ ", " ++ sh v) s)), m) := by
  induction h generalizing s with
  | nil => rfl
  | @cons i v is vs hv _ ih =>
    unfold Loop.debugRest
    have h1 := solo_elemMap hv (fun x => some (s ++ ", " ++ sh x))
    rw [bind_eq, solo_bind h1]
    exact ih _

theorem foldl_append (sep s : String) : ∀ (l : List String) (acc : String),
    l.foldl (fun s v => s ++ sep ++ v) (s ++ acc) = s ++ l.foldl (fun s v => s ++ sep ++ v) acc := by
  intro l
  induction l with
  | nil => intro acc; rfl
  | cons x l ih => intro acc; rw [List.foldl_cons, List.foldl_cons, String.append_assoc, String.append_assoc, ih, String.append_assoc]

theorem intercalate_foldl (sep : String) (x : String) (l : List String) :
    sep.intercalate (x :: l) = l.foldl (fun s v => s ++ sep ++ v) x := by
  induction l generalizing x with
  | nil => simp
  | cons y l ih =>
    rw [String.intercalate_cons_cons, ih, List.foldl_cons, foldl_append]

theorem solo_debug {is : List Nat} {vs : List α} (h : m.Vals is vs) (sh : α → String) :
    (Loop.debug sh is).solo m = (.done (.ok (shown sh vs)), m) := by
  cases h with
  | nil => rfl
  | @cons i v is vs hv h =>
    simp only [Loop.debug]
    rw [bind_eq, solo_bind (solo_elemMap hv _), bind_eq, solo_bind (solo_debugRest h sh _)]
    simp only [pure_eq, Prog.solo, shown, List.map_cons]
    rw [intercalate_foldl, List.foldl_map]
    have := foldl_append ", " "[" (vs.map sh) (sh v)
    rw [List.foldl_map, List.foldl_map] at this
    simp only [id] at this ⊢
    rw [this]

theorem solo_rawRefs {is : List Nat} {vs : List α} (h : m.Vals is vs) (o : MOrd) :
    (Loop.rawRefs o is : Prog α (List Nat)).solo m = (.done (.ok is), m) := by
  induction h with
  | nil => rfl
  | cons hv _ ih =>
    unfold Loop.rawRefs
    rw [bind_eq, solo_bind (solo_copt_getRaw hv o), bind_eq, solo_bind ih]
    rfl

end

end Verif
