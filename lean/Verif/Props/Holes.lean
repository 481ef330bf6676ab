import Verif.Props.Progress
import Verif.Props.Elements

/-!
# Panicking calls: C23, C25
-/

namespace Verif

variable {α β : Type} {m : Mem α} {l : List α} {n : Nat} {κ : Nat → Cfg α β}

/-- At time `s`, some growth call that panicked has left position `h`, which was reserved for it, without a value. -/
def Hole (κ : Nat → Cfg α β) (s h : Nat) : Prop :=
  ∃ c op k b sz, (κ s).Panicked c op k ∧ Received κ s c b sz ∧ b ≤ h ∧ h < b + sz ∧ (κ s).content h = none

/-- Elements given out lie below `len_written`, hence below every position without a value. -/
theorem Reach.revealed_low (hm : InitMem m l) {κ : Cfg α β} (h : Reach m l κ) :
    (∀ c r, κ.calls c = some r → ∀ i ∈ r.op.needs, i < κ.w.mem.written) ∧
    (∀ i, κ.Revealed i → i < κ.w.mem.written) := by
  induction h with
  | init => exact ⟨fun c r hc => by simp [Cfg.init] at hc, fun i ⟨c, r, op, ct, st, et, fin, hc, _⟩ => by simp [Cfg.init] at hc⟩
  | @step κ κ' hre hs ih =>
    have hI := hre.inv hm
    have hI' := (hre.step hs).inv hm
    have hev := hI.step_evolves hs
    have hneeds : ∀ c r, κ'.calls c = some r → ∀ i ∈ r.op.needs, i < κ'.w.mem.written := by
      intro c r hc i hi
      rcases h0 : κ.calls c with _ | r0
      · cases hs with
        | invoke op hn hp =>
          simp only [upd_apply] at hc
          split at hc
          · simp only [Option.some.injEq] at hc
            subst hc
            exact ih.2 i (hn i hi)
          · rw [h0] at hc; cases hc
        | act c' r' a again k w' b hc' hr' he' =>
          rcases setStatus_cases hc with ⟨rfl, -⟩ | ⟨-, hc⟩
          · rw [h0] at hc'; cases hc'
          · rw [h0] at hc; cases hc
        | ub c' r' a again k hc' hr' he' => rw [h0] at hc; cases hc
        | ret c' r' x hc' hr' =>
          rcases setStatus_cases hc with ⟨rfl, -⟩ | ⟨-, hc⟩
          · rw [h0] at hc'; cases hc'
          · rw [h0] at hc; cases hc
        | panic c' r' x hc' hr' =>
          rcases setStatus_cases hc with ⟨rfl, -⟩ | ⟨-, hc⟩
          · rw [h0] at hc'; cases hc'
          · rw [h0] at hc; cases hc
        | reserveMax n hidle => rw [h0] at hc; cases hc
      · obtain ⟨r2, g1, g2⟩ := hI.step_rec hs h0
        rw [hc] at g1
        simp only [Option.some.injEq] at g1
        subst g1
        rw [g2.op] at hi
        exact Nat.lt_of_lt_of_le (ih.1 c r0 h0 i hi) hev.written
    refine ⟨hneeds, ?_⟩
    rintro i ⟨c, x, op, ct, st, et, fin, hc, hi⟩
    obtain ⟨d, hd⟩ := hI'.returned hc
    have hout := hd.out
    have : i < κ'.w.mem.written := by
      refine (hout.reveals (P := fun i => i < κ'.w.mem.written) (fun hl i hi => ?_) (hneeds c _ hc)).1 i hi
      exact Nat.lt_of_lt_of_le hi (Nat.le_trans hl.written hd.ev2.written)
    exact this

/-- **C23.** A position left behind by a growth call that panicked never gets a value. -/
theorem C23_permanent (hm : InitMem m l) (h : Exec m l n κ) {s t p : Nat} (hh : Hole κ s p) (hst : s ≤ t) (ht : t ≤ n) :
    (κ t).content p = none := by
  obtain ⟨c, op, k, b, sz, hp, hrec, h1, h2, h3⟩ := hh
  induction hst with
  | refl => exact h3
  | @step t hst ih =>
    have hst : s ≤ t := hst
    have ih := ih (by omega)
    by_contra hne
    obtain ⟨e, d1, d2, -, k2, -, -, -, k6, -, k8⟩ := (h.prefix ht).change hm (i := p) (Nat.lt_succ_self t)
      (by rw [ih]; exact fun h => hne h.symm)
    have hI := h.inv hm (by omega : t ≤ n)
    have hnone : (κ t).w.spec.val p = none := by rw [← hI.content_eq]; exact ih
    have hres := ((h.prefix (by omega : s ≤ n)).received_iff hm).1 hrec
    have hres' := (h.evolves hm hst (by omega)).trace.subset hres
    have hge := hI.inv.legal.reserve_ge hres'
    have hge1 : l.length ≤ b := hge.1
    rcases k8 with k8 | ⟨c', v, rfl⟩
    · cases e <;> simp only [Ev.Modifies] at k8
      · subst k8; simp only [specOk] at k6; grind
      · simp only [specOk] at k6; grind
    · obtain ⟨b2, n2, g1, g2, g3⟩ := Legal.owner_reserved hI.inv.legal (i := p) (by omega) (by omega)
      have ho := hI.inv.legal.reserve_inj g1 hres' ⟨g2, g3⟩ ⟨h1, h2⟩
      rw [← hI.inv.spec_eq] at ho
      have hcc : c' = c := by simp only [specOk] at k6; rw [← ho]; grind
      subst hcc
      obtain ⟨ct, st, et, fin, hc⟩ := hp
      obtain ⟨r', g4, -, -, -, g5, -⟩ := h.rec_mono hm hc (by omega : s ≤ t + 1) ht
      rw [g5 _ rfl] at g4
      have := k2.2 et ⟨_, _, g4, rfl⟩
      have := ((h.prefix (by omega : s ≤ n)).ended_at hm hc (et := et) (w := fin) rfl).2.1
      omega

/-- **C23.** `len()` never exceeds the hole. -/
theorem C23_len (hm : InitMem m l) (h : Exec m l n κ) {s p : Nat} (hs : s ≤ n) (hh : Hole κ s p) {d : Cid} {x : Nat}
    (hr : (κ n).Returned d .len (.nat x)) : x ≤ p := by
  have hI := h.inv hm (Nat.le_refl n)
  obtain ⟨ct, st, et, fin, hc⟩ := hr
  obtain ⟨e, hd⟩ := hI.returned hc
  obtain ⟨k, hl, hx, -⟩ := hd.out
  cases hx
  have hnone := C23_permanent hm h hh hs (Nat.le_refl n)
  rw [hI.content_eq] at hnone
  rcases Nat.lt_or_ge p x with hlt | hge
  · have := hd.ev2.pub _ (hl.pub p hlt)
    rw [hnone] at this; cases this
  · exact hge

/-- **C23.** No call that gives out elements (`get`, `iter`, `slice`, `split_at`, `chunks`, …, of the vector or of a
slice) ever gives out an element at or behind the hole. -/
theorem C23_not_reached (hm : InitMem m l) (h : Exec m l n κ) {s p : Nat} (hs : s ≤ n) (hh : Hole κ s p) {d : Cid}
    {op : Op α β} {x : Ret α β} (hr : (κ n).Returned d op x) {i : Nat} (hi : i ∈ x.elements) : i < p := by
  have hI := h.inv hm (Nat.le_refl n)
  have hre := h.reach (Nat.le_refl n)
  obtain ⟨ct, st, et, fin, hc⟩ := hr
  have h1 := (hre.revealed_low hm).2 i ⟨d, x, op, ct, st, et, fin, hc, hi⟩
  have hnone := C23_permanent hm h hh hs (Nat.le_refl n)
  rw [hI.content_eq] at hnone
  rcases Nat.lt_or_ge i p with hlt | hge
  · exact hlt
  · have := hI.inv.written p (by omega)
    rw [hnone] at this; cases this

/-- **C23.** Copying iterations (`iter_cloned`, `clone_to_vec`) yield at most the elements before the hole. -/
theorem C23_values (hm : InitMem m l) (h : Exec m l n κ) {s p : Nat} (hs : s ≤ n) (hh : Hole κ s p) {d : Cid}
    {op : Op α β} (hop : op = .iterCloned ∨ op = .cloneToVec) {vs : List α} (hr : (κ n).Returned d op (.vals vs)) :
    vs.length ≤ p := by
  have hI := h.inv hm (Nat.le_refl n)
  obtain ⟨ct, st, et, fin, hc⟩ := hr
  obtain ⟨e, hd⟩ := hI.returned hc
  have hnone := C23_permanent hm h hh hs (Nat.le_refl n)
  rw [hI.content_eq] at hnone
  have : ∃ k vs', LenOK d st k fin ∧ (.vals vs : Ret α β) = .vals vs' ∧ vs'.length = k ∧ e = reads d 0 vs' := by
    rcases hop with rfl | rfl <;> exact hd.out
  obtain ⟨k, vs', hl, hx, rfl, -⟩ := this
  cases hx
  rcases Nat.lt_or_ge p vs.length with hlt | hge
  · have := hd.ev2.pub _ (hl.pub p hlt)
    rw [hnone] at this; cases this
  · exact hge

/-- **C23.** `get_cloned` of the hole returns `None`. -/
theorem C23_get_cloned_hole (hm : InitMem m l) (h : Exec m l n κ) {s p : Nat} (hs : s ≤ n) (hh : Hole κ s p) {d : Cid}
    {o : Option α} (hr : (κ n).Returned d (.getCloned p) (.optVal o)) : o = none := by
  cases o with
  | none => rfl
  | some v =>
    exfalso
    obtain ⟨t, h1, h2⟩ := C14_some hm h hr
    have htn : t ≤ n := by
      obtain ⟨ct, st, et, fin, hc⟩ := hr
      have := h1.2 et ⟨_, _, hc, rfl⟩
      have := (h.ended_at hm hc (et := et) (w := fin) rfl).2.1
      omega
    have := h.keep_some hm htn (Nat.le_refl n) (i := p) (by rw [h2]; rfl)
    rw [C23_permanent hm h hh hs (Nat.le_refl n)] at this
    cases this

/-- **C23.** A position behind the hole that was written by somebody else before `get_cloned` is called is still
readable by `get_cloned`. -/
theorem C23_get_cloned_behind (hm : InitMem m l) (h : Exec m l n κ) {d : Cid} {i : Nat} {o : Option α} {mem : Mem α}
    (hr : (κ n).Returned d (.getCloned i) (.optVal o)) (hs : (κ n).AtStart d mem) (hv : (mem.content i).isSome) :
    o.isSome := by
  cases o with
  | some v => rfl
  | none =>
    exfalso
    obtain ⟨t, ⟨⟨t0, ⟨r, h1, h2⟩, h3⟩, h4⟩, h5⟩ := C14_none hm h hr
    obtain ⟨r', h6, rfl⟩ := hs
    rw [h1] at h6
    simp only [Option.some.injEq] at h6
    subst h6
    obtain ⟨g1, g2, g3, -⟩ := h.called_at hm h1
    have htn : t ≤ n := by
      obtain ⟨ct, st, et, fin, hc⟩ := hr
      have := h4 et ⟨_, _, hc, rfl⟩
      have := (h.ended_at hm hc (et := et) (w := fin) rfl).2.1
      omega
    rw [g3] at hv
    have := h.keep_some hm (by omega : r.callT ≤ t) htn hv
    rw [h5] at this
    cases this

/-- **C23.** Other elements are unaffected by the panic: they keep their value as long as nobody modifies them. -/
theorem C23_others (hm : InitMem m l) (h : Exec m l n κ) {s t : Nat} (hst : s ≤ t) (ht : t ≤ n) {i : Nat} {v : α}
    (hv : (κ s).content i = some v) (hn : ∀ c op, (κ t).Called c op → ¬ op.MayWrite i) : (κ t).content i = some v :=
  h.keep hm hst ht hv hn

/-! ## C25 -/

/-- **C25.** Element locks are held by running calls only; in particular a call that panicked holds none. -/
theorem C25_released (hm : InitMem m l) {κ : Cfg α β} (h : Reach m l κ) {i : Nat} (hi : κ.w.mem.st i = .RESERVED) :
    ∃ d op, κ.Running d op ∧ ∀ op' k, ¬ κ.Panicked d op' k := by
  have hI := h.inv hm
  obtain ⟨d, hd⟩ := Option.isSome_iff_exists.1 ((hI.inv.lock i).1 hi)
  obtain ⟨⟨op, ct, st, s⟩, p, h1, h2⟩ := hI.holder hd
  simp only at h2
  subst h2
  refine ⟨d, op, ⟨ct, st, p, h1⟩, ?_⟩
  rintro op' k ⟨ct', st', et, fin, hc⟩
  rw [h1] at hc; cases hc

/-- **C25.** At the end of an element operation, panicking or not, and ever after, the element has a value. -/
theorem C25_keeps_value (hm : InitMem m l) {κ : Cfg α β} (h : Reach m l κ) {c : Cid} {op : Op α β} {k : PanicKind}
    {i : Nat} (hp : κ.Panicked c op k) (ho : (∃ f, op = .elMap f i) ∨ (∃ f, op = .elUpdate f i)) :
    (κ.content i).isSome := by
  have hI := h.inv hm
  obtain ⟨ct, st, et, fin, hc⟩ := hp
  have hs := (hI.start c _ hc).needs i (by rcases ho with ⟨f, rfl⟩ | ⟨f, rfl⟩ <;> simp [Op.needs])
  obtain ⟨U, d, hi⟩ := hI.panicked hc
  rw [hI.content_eq]
  exact hi.ev2.pub i (hi.ev1.pub i hs)

/-- **C25.** A `map` whose closure panics changes nothing: the element's value changes only in steps of calls that may
modify it. -/
theorem C25_map_unchanged (hm : InitMem m l) (h : Exec m l n κ) {s t : Nat} (hst : s ≤ t) (ht : t ≤ n) {i : Nat} {v : α}
    (hv : (κ s).content i = some v) (hall : ∀ c op, (κ t).Called c op → (∃ f, op = .elMap f i) ∨ ¬ op.MayWrite i) :
    (κ t).content i = some v := by
  refine h.keep hm hst ht hv fun c op hc => ?_
  rcases hall c op hc with ⟨f, rfl⟩ | hh
  · exact id
  · exact hh

/-- **C25.** An `update` whose closure panics acts at one moment during the call: it leaves the value the closure
left, `(f old).1`, where `old` is the value before. -/
theorem C25_update (hm : InitMem m l) (h : Exec m l n κ) {c : Cid} {i : Nat} {f : α → α × Bool} {k : PanicKind}
    (hp : (κ n).Panicked c (.elUpdate f i) k) :
    ∃ t old, (κ n).During c t ∧ (κ t).content i = some old ∧ (f old).2 = false ∧
      (κ (t + 1)).content i = some (f old).1 := by
  obtain ⟨lin, -, h2, -⟩ := C15_linearizable hm h i
  obtain ⟨h3, old, h4, h5, h6⟩ := h2 c f k hp
  exact ⟨lin c, old, h3, h4, h6, h5⟩

/-- **C25.** Later operations on the element work: an operation on an element that overlaps with no other call ends,
whatever calls panicked before. -/
theorem C25_later_ops_end {κ : Nat → Cfg α β} (hm : InitMem m l) (h : InfExec m l κ) (hf : Fair κ) {c : Cid}
    {op : Op α β} {i t0 : Nat} (ho : op.OnElement i) (hc : (κ t0).Called c op) (ha : ∀ t, (κ t).Alone c) :
    ∃ t, (∃ x, (κ t).Returned c op x) ∨ ∃ k, (κ t).Panicked c op k := by
  have hns : op.NoSelf := by cases op <;> simp only [Op.OnElement] at ho <;> trivial
  have hsz : op.size = none := by cases op <;> simp only [Op.OnElement] at ho <;> rfl
  have hcall : ∀ t, t0 ≤ t → (κ t).Called c op := fun t ht =>
    (h.exec t).called_mono hm ht (Nat.le_refl _) hc
  have hnb : ∀ t, ¬ (κ t).Blocked c := by
    intro t hb
    obtain ⟨⟨op', ct, st, p, hcr⟩, -⟩ := id hb
    have h1 : (κ (max t t0)).Called c op' :=
      (h.exec _).called_mono hm (Nat.le_max_left t t0) (Nat.le_refl _) ⟨ct, st, _, hcr⟩
    have := h1.unique (hcall _ (Nat.le_max_right t t0))
    subst this
    exact (h.inv hm t).alone_not_blocked ⟨ct, st, _, hcr⟩ (ha t) hns hsz hb
  obtain ⟨t', ⟨op', ct, st, s⟩, x, hc', he⟩ := h.unblocked_ends hm hf hc hnb
  have h1 : (κ (max t' t0)).Called c op' :=
    (h.exec _).called_mono hm (Nat.le_max_left t' t0) (Nat.le_refl _) ⟨ct, st, _, hc'⟩
  have := h1.unique (hcall _ (Nat.le_max_right t' t0))
  subst this
  cases s with
  | running p => cases he
  | done x et fin => exact ⟨t', .inl ⟨x, ct, st, et, fin, hc'⟩⟩
  | panicked k et fin => exact ⟨t', .inr ⟨k, ct, st, et, fin, hc'⟩⟩

section examples
open Demo

/-- The closure of call 1 (`push_for_idx`) panics for position 2; call 2 pushes 8 to position 3. Then `len` returns 2,
`iter` yields positions 0 and 1, `get(3)` is `None`, but `get_cloned(3)` returns 8. -/
def Demo.hole : List (Choice Nat Nat) :=
  [.call (.pushForIdx fun _ => none)] ++ go 1 2 ++ [.call (.push 8)] ++ go 2 6 ++
  [.call .len] ++ go 3 6 ++ [.call .iter] ++ go 4 6 ++ [.call (.get 3)] ++ go 5 6 ++ [.call (.getCloned 3)] ++ go 6 7 ++
  [.call (.getCloned 2)] ++ go 7 5 ++ [.call .iterCloned] ++ go 8 12

example : Possible [10, 20] 4 8 hole ∧ Hole (fun t => after [10, 20] 4 8 (hole.take t)) 3 2 ∧
    (after [10, 20] 4 8 hole).Returned 2 (.push 8) (.nat 3) ∧
    (after [10, 20] 4 8 hole).Returned 3 .len (.nat 2) ∧
    (after [10, 20] 4 8 hole).Returned 4 .iter (.elems [0, 1]) ∧
    (after [10, 20] 4 8 hole).Returned 5 (.get 3) (.elem none) ∧
    (after [10, 20] 4 8 hole).Returned 6 (.getCloned 3) (.optVal (some 8)) ∧
    (after [10, 20] 4 8 hole).Returned 7 (.getCloned 2) (.optVal none) ∧
    (after [10, 20] 4 8 hole).Returned 8 .iterCloned (.vals [10, 20]) := by
  refine ⟨by unfold Possible; rfl, ?_, returned_of rfl rfl, returned_of rfl rfl, returned_of rfl rfl, returned_of rfl rfl,
    returned_of rfl rfl, returned_of rfl rfl, returned_of rfl rfl⟩
  refine ⟨1, _, _, 2, 1, panicked_of rfl rfl, ⟨1, .relaxed, by decide, ⟨_, _, _, _, _, rfl⟩, rfl, ?_⟩, by decide,
    by decide, rfl⟩
  rintro ⟨_, _, _, _, _, h1⟩
  cases h1

/-- The closure of call 2 (`update` on element 0) panics after it has changed the value to 99, the closure of call 3
(`map` on element 1) panics; later operations work. -/
def Demo.elemPanic : List (Choice Nat Nat) :=
  [.call .iter] ++ go 1 5 ++ [.call (.elUpdate (fun _ => (99, false)) 0), .call (.elMap (fun _ => none) 1)] ++ go 2 2 ++
  go 3 4 ++ go 2 3 ++ [.call (.elCloned 0)] ++ go 4 4

example : InfExec (mem [10, 20] 2 8) [10, 20] (forever [10, 20] 2 8 elemPanic) ∧
    Fair (forever [10, 20] 2 8 elemPanic) ∧
    (after [10, 20] 2 8 elemPanic).Panicked 2 (.elUpdate (fun _ => (99, false)) 0) .userCode ∧
    (after [10, 20] 2 8 elemPanic).Panicked 3 (.elMap (fun _ => none) 1) .userCode ∧
    (after [10, 20] 2 8 elemPanic).Returned 4 (.elCloned 0) (.val 99) ∧
    (after [10, 20] 2 8 elemPanic).content 1 = some 20 := by
  have hposs : Possible [10, 20] 2 8 elemPanic := by unfold Possible; rfl
  have hi : (after [10, 20] 2 8 elemPanic).Idle := idle_of (by decide) (by decide) (reach_after hposs) rfl
  exact ⟨infExec_forever hposs hi rfl, fair_forever (by decide) (by decide) hposs hi rfl, panicked_of rfl rfl,
    panicked_of rfl rfl, returned_of rfl rfl, rfl⟩

end examples

end Verif
