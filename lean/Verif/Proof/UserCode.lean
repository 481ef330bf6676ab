import Verif.Model.UserCode
import Verif.Spec.UserCode
import Verif.Spec.ListSpec
import Verif.Proof.Bulk
import Verif.Proof.EventTime

/-!
# The loops with stateful user code are `visit` loops
-/

namespace Verif

open Prog

variable {α β γ σ ρ : Type}

theorem elemMap_map (f : α → Option β) (g : β → γ) (i : Nat) (k : γ → Prog α ρ) :
    (Elem.map (fun x => (f x).map g) i).bind k = (Elem.map f i).bind fun b => k (g b) := by
  simp only [Elem.map, COpt.map, COpt.lock, COpt.unlock, act, spin, Prog.bind_eq, Prog.bind_assoc, Prog.step_bind, Prog.pure_eq,
    Prog.ret_bind]
  congr 1
  funext r
  split
  · simp only [step_bind]
    congr 1
    funext v
    congr 1
    funext _
    cases f v <;> rfl
  · rfl

theorem clonedWith_eq (cl : α → Option α) (i : Nat) : Elem.clonedWith cl i = Elem.map cl i := rfl

theorem clonedWith_id (i : Nat) : Elem.clonedWith (some : α → Option α) i = Elem.cloned i := rfl

theorem mapMut_visit (f : σ → α → Option (β × σ)) : ∀ (is : List Nat) (acc : List β) (s : σ),
    Loop.visit (stepMap f) (acc, s) is = (Loop.mapMut f s is).bind fun r => .ret (acc ++ r.1, r.2) := by
  intro is
  induction is with
  | nil => intro acc s; simp [Loop.visit, Loop.mapMut]
  | cons i is ih =>
    intro acc s
    simp only [Loop.visit, Loop.mapMut, Prog.bind_eq, Prog.pure_eq, Prog.bind_assoc, ret_bind]
    refine (elemMap_map (f s) (fun r => ((acc ++ [r.1], r.2), true)) i _).trans ?_
    congr 1
    funext r
    simp only [if_true, ih]
    congr 1
    funext r'
    simp

theorem filterMut_visit (f : σ → α → Option (Bool × σ)) : ∀ (n a : Nat) (acc : List Nat) (s : σ),
    Loop.visit (stepFilter f) (acc, a, s) (positions a n) =
      (Loop.filterMut f s (positions a n)).bind fun r => .ret (acc ++ r.1, a + n, r.2) := by
  intro n
  induction n with
  | zero => intro a acc s; simp [Loop.visit, Loop.filterMut, positions]
  | succ n ih =>
    intro a acc s
    simp only [positions, List.range'_succ, Loop.visit, Loop.filterMut, Prog.bind_eq, Prog.pure_eq, Prog.bind_assoc,
      ret_bind]
    refine (elemMap_map (f s) (fun r => ((if r.1 then acc ++ [a] else acc, a + 1, r.2), true)) a _).trans ?_
    congr 1
    funext r
    simp only [if_true]
    refine (ih (a + 1) _ _).trans ?_
    congr 1
    funext r'
    split <;> simp [Nat.add_comm, Nat.add_left_comm]

theorem foldMut_visit (f : σ → β → α → Option (β × σ)) : ∀ (is : List Nat) (b : β) (s : σ),
    Loop.visit (stepFold f) (b, s) is = Loop.foldMut f s b is := by
  intro is
  induction is with
  | nil => intro b s; rfl
  | cons i is ih =>
    intro b s
    simp only [Loop.visit, Loop.foldMut, Prog.bind_eq]
    refine (elemMap_map (f s b) (fun r => (r, true)) i _).trans ?_
    congr 1
    funext r
    exact ih r.1 r.2

theorem foldMut_visit' (cl : α → Option α) (f : σ → α → α → Option (α × σ)) : ∀ (is : List Nat) (a : α) (s : σ),
    Loop.visit (stepReduce cl f) (some a, s) is = (Loop.foldMut f s a is).bind fun r => .ret (some r.1, r.2) := by
  intro is
  induction is with
  | nil => intro b s; rfl
  | cons i is ih =>
    intro b s
    simp only [Loop.visit, Loop.foldMut, Prog.bind_eq, Prog.bind_assoc]
    refine (elemMap_map (f s b) (fun r => ((some r.1, r.2), true)) i _).trans ?_
    congr 1
    funext r
    exact ih r.1 r.2

theorem reduceMut_visit (cl : α → Option α) (f : σ → α → α → Option (α × σ)) (is : List Nat) (s : σ) :
    Loop.visit (stepReduce cl f) (none, s) is = Loop.reduceMut cl f s is := by
  cases is with
  | nil => rfl
  | cons i is =>
    simp only [Loop.visit, Loop.reduceMut, Prog.bind_eq, Prog.pure_eq]
    refine (elemMap_map cl (fun v => ((some v, s), true)) i _).trans ?_
    rw [clonedWith_eq]
    congr 1
    funext r
    exact foldMut_visit' cl f is r s

theorem positionTry_visit (veq : α → α → Option Bool) (t : α) : ∀ (is : List Nat) (k : Nat),
    (Loop.visit (stepPosition veq t) (k, none) is).bind (fun r => .ret r.2) = Loop.positionTry veq t k is := by
  intro is
  induction is with
  | nil => intro k; rfl
  | cons i is ih =>
    intro k
    simp only [Loop.visit, Loop.positionTry, Prog.bind_eq, Prog.bind_assoc, Elem.eqValTry, Prog.pure_eq]
    refine (elemMap_map (fun x => veq x t) (fun b => if b then ((k, some k), false) else ((k + 1, none), true)) i _).trans ?_
    congr 1
    funext b
    cases b with
    | true => rfl
    | false => exact ih (k + 1)

theorem clonedTry_visit (cl : α → Option α) : ∀ (is : List Nat) (acc : List α),
    Loop.visit (stepClone cl) acc is = (Loop.clonedTry cl is).bind fun r => .ret (acc ++ r) := by
  intro is
  induction is with
  | nil => intro acc; simp [Loop.visit, Loop.clonedTry]
  | cons i is ih =>
    intro acc
    simp only [Loop.visit, Loop.clonedTry, Prog.bind_eq, Prog.pure_eq, Prog.bind_assoc, ret_bind]
    refine (elemMap_map cl (fun v => (acc ++ [v], true)) i _).trans ?_
    rw [clonedWith_eq]
    congr 1
    funext r
    simp only [if_true, ih]
    congr 1
    funext r'
    simp

theorem debugRestTry_visit (fmt : String → α → Option (String × Bool)) : ∀ (is : List Nat) (s : String),
    (Loop.visit (stepDebug fmt) (false, s, true) is).bind (fun r => .ret (endDebug r)) =
      (Loop.debugRestTry fmt s is).bind fun r => .ret (if r.2 then (r.1 ++ "]", true) else r) := by
  intro is
  induction is with
  | nil => intro s; rfl
  | cons i is ih =>
    intro s
    simp only [Loop.visit, Loop.debugRestTry, Prog.bind_eq, Prog.pure_eq, Prog.bind_assoc]
    refine (elemMap_map (fmt (s ++ ", ")) (fun r => ((false, r.1, r.2), r.2)) i _).trans ?_
    congr 1
    funext r
    obtain ⟨s', ok⟩ := r
    cases ok with
    | true => exact ih s'
    | false => rfl

theorem debugTry_visit (fmt : String → α → Option (String × Bool)) (is : List Nat) :
    (Loop.visit (stepDebug fmt) (true, "[", true) is).bind (fun r => .ret (endDebug r)) = Loop.debugTry fmt is := by
  cases is with
  | nil => rfl
  | cons i is =>
    simp only [Loop.visit, Loop.debugTry, Prog.bind_eq, Prog.pure_eq, Prog.bind_assoc]
    refine (elemMap_map (fmt "[") (fun r => ((false, r.1, r.2), r.2)) i _).trans ?_
    simp only
    congr 1
    funext r
    obtain ⟨s', ok⟩ := r
    cases ok with
    | true =>
      refine (debugRestTry_visit fmt is s').trans ?_
      simp only [if_true]
      congr 1
      funext r'
      split <;> rfl
    | false => rfl

theorem fillWithMut_eq (f : σ → Nat → Option (α × σ)) : ∀ (is : List Nat) (s : σ) (k : Nat) (g : Nat → Option α),
    (∀ j, j < is.length → (∀ j', j' < j → (g (k + j')).isSome) → g (k + j) = supplied f s k j) →
    Loop.fillWithMut f s k is = Loop.fillWith g k is := by
  intro is
  induction is with
  | nil => intro s k g _; rfl
  | cons i is ih =>
    intro s k g hg
    have h0 : g k = (f s k).map Prod.fst := by simpa [supplied] using hg 0 (by simp) (by omega)
    simp only [Loop.fillWithMut, Loop.fillWith]
    cases hf : f s k with
    | none => rw [h0, hf]; rfl
    | some r =>
      rw [h0, hf]
      simp only [Option.map_some, Prog.bind_eq]
      congr 1
      funext _
      refine ih r.2 (k + 1) g fun j hj hall => ?_
      have := hg (j + 1) (by simpa using hj) fun j' hj' => by
        rcases j' with _ | j'
        · simp [h0, hf]
        · have := hall j' (by omega)
          rwa [show k + (j' + 1) = k + 1 + j' by omega]
      rw [show k + 1 + j = k + (j + 1) by omega, this]
      simp [supplied, hf]

theorem fillTry_eq (cl : Nat → Option α) : ∀ (is : List Nat) (k : Nat), Loop.fillTry cl k is = Loop.fillWith cl k is := by
  intro is
  induction is with
  | nil => intro k; rfl
  | cons i is ih =>
    intro k
    simp only [Loop.fillTry, Loop.fillWith]
    cases cl k with
    | none => rfl
    | some v => simp only [ih]

/-! ## What a call saw -/

section saw
variable {m : Mem α} {l : List α} {n : Nat} {κ : Nat → Cfg α β}

theorem reads_take {c : Cid} : ∀ {a : Nat} {vs : List α} {j : Nat} {v : α}, vs[j]? = some v →
    reads c a vs = reads c a (vs.take j) ++ Ev.read c (a + j) v :: reads c (a + j + 1) (vs.drop (j + 1))
  | a, [], j, v, h => by simp at h
  | a, x :: vs, 0, v, h => by
    simp only [List.getElem?_cons_zero, Option.some.injEq] at h
    subst h
    rfl
  | a, x :: vs, j + 1, v, h => by
    have := reads_take (c := c) (a := a + 1) (vs := vs) (j := j) (v := v) (by simpa using h)
    simp only [reads, List.take_succ_cons, List.cons_append, List.drop_succ_cons]
    rw [this, show a + 1 + j = a + (j + 1) by omega]

theorem reads_length {c : Cid} : ∀ {a : Nat} {vs : List α}, (reads c a vs).length = vs.length
  | _, [] => rfl
  | a, v :: vs => by simp [reads, reads_length (a := a + 1) (vs := vs)]

theorem Exec.saw (h : Exec m l n κ) (hm : InitMem m l) {c : Cid} {a : Nat} {xs : List α}
    (hd : dataOf c (κ n).w.trace = reads c a xs) : Saw κ n c a xs := by
  have key : ∀ j, ∃ t, ∀ v, xs[j]? = some v → t < n ∧ (dataOf c (κ t).w.trace).length = j ∧
      Happens κ t (.read c (a + j) v) ∧ (κ n).During c t ∧ (κ t).content (a + j) = some v := by
    intro j
    rcases hj : xs[j]? with _ | v
    · exact ⟨0, by simp⟩
    · rw [reads_take hj] at hd
      obtain ⟨t, h1, h2, h3, h4, h5, -⟩ := h.data_time hm hd
      refine ⟨t, fun w hw => ?_⟩
      obtain rfl := Option.some.inj hw
      have hlt := (List.getElem?_eq_some_iff.1 hj).1
      refine ⟨h1, by rw [h2, reads_length, List.length_take]; omega, h3, h4, ?_⟩
      rw [(h.inv hm (by omega : t ≤ n)).content_eq]
      exact h5
  choose τ hτ using key
  refine ⟨τ, fun j v hv => (hτ j v hv).2.2.2, fun i j hij hj => ?_⟩
  obtain ⟨-, a2, -⟩ := hτ i _ (List.getElem?_eq_getElem (by omega))
  obtain ⟨b1, b2, -⟩ := hτ j _ (List.getElem?_eq_getElem hj)
  obtain ⟨a1, -⟩ := hτ i _ (List.getElem?_eq_getElem (by omega))
  by_contra hlt
  have hle : τ j ≤ τ i := by omega
  obtain ⟨u, hu⟩ := (h.evolves hm hle (by omega)).trace
  have : (dataOf c (κ (τ j)).w.trace).length ≤ (dataOf c (κ (τ i)).w.trace).length := by
    rw [← hu, dataOf_append, List.length_append]; omega
  omega

/-- The result of the user code for a prefix of the values that it either read completely or did not want to read further. -/
theorem called_looped {f : β → α → Option (β × Bool)} : ∀ {vs : List α} {b b' : β} {go : Bool} (ws : List α),
    called f b vs = some (b', go) → looped f b (vs ++ ws) = if go then looped f b' ws else some b'
  | [], b, b', go, ws, h => by
    simp only [called, Option.some.injEq, Prod.mk.injEq] at h
    obtain ⟨rfl, rfl⟩ := h
    simp
  | v :: vs, b, b', go, ws, h => by
    rw [called] at h
    rw [List.cons_append, looped]
    split at h
    · simp at h
    · rename_i b1 hf
      rw [hf]
      exact called_looped ws h
    · rename_i b1 hf
      rw [hf]
      simp only [List.isEmpty_iff] at h
      split at h
      · simp only [Option.some.injEq, Prod.mk.injEq] at h
        obtain ⟨rfl, rfl⟩ := h
        simp
      · simp at h

end saw

/-! ## The steps compute what the list functions say -/

theorem looped_map (f : σ → α → Option (β × σ)) : ∀ (vs : List α) (acc : List β) (s : σ),
    looped (stepMap f) (acc, s) vs = (mapped f s vs).map fun r => (acc ++ r.1, r.2) := by
  intro vs
  induction vs with
  | nil => intro acc s; simp [looped, mapped]
  | cons v vs ih =>
    intro acc s
    simp only [looped, mapped, stepMap]
    rcases f s v with _ | ⟨b, s'⟩
    · rfl
    · simp only [Option.map_some, ih]
      simp only [Option.bind_eq_bind, Option.bind_some, Option.pure_def]
      rcases mapped f s' vs with _ | ⟨bs, s''⟩ <;> simp

theorem looped_filter (f : σ → α → Option (Bool × σ)) : ∀ (vs : List α) (acc : List Nat) (a : Nat) (s : σ),
    looped (stepFilter f) (acc, a, s) vs = (kept f a s vs).map fun r => (acc ++ r.1, a + vs.length, r.2) := by
  intro vs
  induction vs with
  | nil => intro acc a s; simp [looped, kept]
  | cons v vs ih =>
    intro acc a s
    simp only [looped, kept, stepFilter]
    rcases f s v with _ | ⟨b, s'⟩
    · rfl
    · simp only [Option.map_some, ih]
      simp only [Option.bind_eq_bind, Option.bind_some, Option.pure_def]
      rcases kept f (a + 1) s' vs with _ | ⟨bs, s''⟩
      · rfl
      · cases b <;> simp [Nat.add_comm, Nat.add_left_comm]

theorem looped_fold (f : σ → β → α → Option (β × σ)) : ∀ (vs : List α) (b : β) (s : σ),
    looped (stepFold f) (b, s) vs = folded f s b vs := by
  intro vs
  induction vs with
  | nil => intro b s; rfl
  | cons v vs ih =>
    intro b s
    simp only [looped, folded, stepFold]
    rcases f s b v with _ | ⟨b', s'⟩
    · rfl
    · exact ih b' s'

theorem looped_reduce' (cl : α → Option α) (f : σ → α → α → Option (α × σ)) : ∀ (vs : List α) (a : α) (s : σ),
    looped (stepReduce cl f) (some a, s) vs = (folded f s a vs).map fun r => (some r.1, r.2) := by
  intro vs
  induction vs with
  | nil => intro b s; rfl
  | cons v vs ih =>
    intro b s
    simp only [looped, folded, stepReduce]
    rcases f s b v with _ | ⟨b', s'⟩
    · rfl
    · exact ih b' s'

theorem looped_reduce (cl : α → Option α) (f : σ → α → α → Option (α × σ)) (vs : List α) (s : σ) :
    looped (stepReduce cl f) (none, s) vs = reducedFrom cl f s vs := by
  cases vs with
  | nil => rfl
  | cons v vs =>
    simp only [looped, reducedFrom, stepReduce]
    rcases cl v with _ | a
    · rfl
    · simp only [Option.map_some, looped_reduce']
      simp only [Option.bind_eq_bind, Option.bind_some, Option.pure_def]
      rcases folded f s a vs with _ | r <;> rfl

theorem looped_position (veq : α → α → Option Bool) (t : α) : ∀ (vs : List α) (k : Nat),
    (looped (stepPosition veq t) (k, none) vs).map Prod.snd = located veq t k vs := by
  intro vs
  induction vs with
  | nil => intro k; rfl
  | cons v vs ih =>
    intro k
    simp only [looped, located, stepPosition]
    rcases veq v t with _ | b
    · rfl
    · cases b with
      | true => rfl
      | false => exact ih (k + 1)

theorem looped_clone (cl : α → Option α) : ∀ (vs : List α) (acc : List α),
    looped (stepClone cl) acc vs = (vs.mapM cl).map (acc ++ ·) := by
  intro vs
  induction vs with
  | nil => intro acc; simp [looped]
  | cons v vs ih =>
    intro acc
    simp only [looped, stepClone, List.mapM_cons]
    rcases cl v with _ | b
    · rfl
    · simp only [Option.map_some, ih]
      simp only [Option.bind_eq_bind, Option.bind_some, Option.pure_def]
      rcases vs.mapM cl with _ | bs <;> simp

theorem looped_debug' (fmt : String → α → Option (String × Bool)) : ∀ (vs : List α) (s : String), vs ≠ [] →
    (looped (stepDebug fmt) (false, s, true) vs).map endDebug = written fmt (s ++ ", ") vs := by
  intro vs
  induction vs with
  | nil => intro s h; exact absurd rfl h
  | cons v vs ih =>
    intro s _
    simp only [looped, written, stepDebug, Bool.false_eq_true, if_false]
    rcases fmt (s ++ ", ") v with _ | ⟨s', ok⟩
    · rfl
    · cases ok with
      | false => rfl
      | true =>
        rcases vs with _ | ⟨w, vs⟩
        · rfl
        · exact ih s' (by simp)

theorem looped_debug (fmt : String → α → Option (String × Bool)) (vs : List α) :
    (looped (stepDebug fmt) (true, "[", true) vs).map endDebug = written fmt "[" vs := by
  cases vs with
  | nil => rfl
  | cons v vs =>
    simp only [looped, written, stepDebug, if_true]
    rcases fmt "[" v with _ | ⟨s', ok⟩
    · rfl
    · cases ok with
      | false => rfl
      | true =>
        rcases vs with _ | ⟨w, vs⟩
        · rfl
        · exact looped_debug' fmt _ s' (by simp)

end Verif
