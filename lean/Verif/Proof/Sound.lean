import Verif.Proof.OpSafe
import Verif.Spec.Calls

/-!
# Invariant of concurrent executions

Helper file (no property statements): everything the rely/guarantee proofs of the single calls imply for
all reachable configurations.
-/

namespace Verif

variable {α β : Type}

/-- `(t, w)` is the beginning or the end of a call. -/
def Cfg.Snap (κ : Cfg α β) (t : Nat) (w : World α) : Prop :=
  ∃ c r, κ.calls c = some r ∧ ((t = r.callT ∧ w = r.start) ∨ r.status.ended = some (t, w))

/-- Positions a call owns which are not published. -/
def Unpub (c : Cid) (w : World α) : Nat → Prop :=
  fun i => i < w.spec.len ∧ w.spec.owner i = c ∧ w.spec.val i = none

theorem Loc.rebase {c : Cid} {w0 w : World α} {L U : Nat → Prop} {d : List (Ev α)} {g : Prop}
    (h : Loc c w0 L U d g w) : Loc c w L U d g w :=
  ⟨⟨.refl w, rfl, h.locks, h.unpub, h.data, h.grow⟩, h.clean⟩

/-- A call that ended in `fin` has done nothing until `w`. -/
structure Ended (c : Cid) (fin w : World α) : Prop where
  ev : Evolves fin w
  loc : Loc c w noPos (Unpub c fin) (dataOf c fin.trace) False w

theorem Ended.of_loc {c : Cid} {w0 w : World α} {U : Nat → Prop} {d : List (Ev α)}
    (h : Loc c w0 noPos U d False w) : Ended c w w :=
  ⟨.refl w, ⟨.refl w, rfl, h.locks, fun _ => .rfl, rfl, h.grow⟩, fun i hi => h.clean i ((h.unpub i).1 hi)⟩

theorem Ended.stable {σ₀ : SpecSt α} {c : Cid} {fin w w' : World α} (hI : Inv σ₀ w) (hr : Rely c w w')
    (h : Ended c fin w) : Ended c fin w' :=
  ⟨h.ev.trans hr.ev, (h.loc.stable hI hr).rebase⟩

/-- Statuses are in accordance with the specification. -/
def StatusOK (σ₀ : SpecSt α) (κ : Cfg α β) (c : Cid) (r : Rec α β) : Prop :=
  match r.status with
  | .running p => Safe (r.op.ctx σ₀ c) (Post r.op c r.start) (PPost r.op c r.start) p κ.w ∧
      κ.w.mem.maxCap = r.start.mem.maxCap
  | .done x t fin => r.callT < t ∧ Inv σ₀ fin ∧ Post r.op c r.start x fin ∧ Ended c fin κ.w
  | .panicked k t fin => r.callT < t ∧ Inv σ₀ fin ∧ PPost r.op c r.start k fin ∧ Ended c fin κ.w

structure StartOK (σ₀ : SpecSt α) (κ : Cfg α β) (c : Cid) (r : Rec α β) : Prop where
  inv : Inv σ₀ r.start
  loc : Loc c r.start noPos noPos [] False r.start
  needs : ∀ i ∈ r.op.needs, (r.start.spec.val i).isSome
  needsPtr : ∀ i ∈ r.op.needsPtr, (r.start.spec.val i).isSome

/-- Invariant of configurations. -/
structure CfgInv (σ₀ : SpecSt α) (κ : Cfg α β) : Prop where
  inv : Inv σ₀ κ.w
  noUB : κ.ub = false
  fresh : ∀ c, κ.calls c = none → Loc c κ.w noPos noPos [] False κ.w
  next : ∀ c r, κ.calls c = some r → 0 < c ∧ c < κ.next
  pos : 0 < κ.next
  start : ∀ c r, κ.calls c = some r → StartOK σ₀ κ c r
  status : ∀ c r, κ.calls c = some r → StatusOK σ₀ κ c r
  snap : ∀ t w, κ.Snap t w → t < κ.clock ∧ Evolves w κ.w
  order : ∀ t w t' w', κ.Snap t w → κ.Snap t' w' → t < t' → Evolves w w'
  events : ∀ t1 e t2, κ.w.trace = t1 ++ e :: t2 → ∃ r, κ.calls e.cid = some r ∧
    (e.isData = false ∨ r.op.Allows (dataOf e.cid t1) e)
  busy : ∀ c i d, Ev.busy c i d ∈ κ.w.trace → ∃ r1 r2, κ.calls c = some r1 ∧ κ.calls d = some r2 ∧
    ¬ r1.Before r2 ∧ ¬ r2.Before r1

/-! ## Results only reveal published positions -/

theorem slice_sub (s : Slc) (rg : Rng) :
    s.a ≤ (s.slice rg).a ∧ (s.slice rg).a + (s.slice rg).len ≤ s.a + s.len := by
  have h : (rangeLimits rg s.len).1 ≤ (rangeLimits rg s.len).2 ∧ (rangeLimits rg s.len).2 ≤ s.len := by
    simp only [rangeLimits]
    omega
  simp only [Slc.slice]
  omega

theorem selected_mem (f : α → Option Bool) : ∀ (vs : List α) (a i : Nat), i ∈ selected f a vs →
    a ≤ i ∧ i < a + vs.length
  | [], a, i, h => by simp [selected] at h
  | v :: vs, a, i, h => by
    have ih := selected_mem f vs (a + 1) i
    simp only [selected] at h
    simp only [List.length_cons]
    split at h
    · simp only [List.mem_cons] at h
      rcases h with h | h
      · omega
      · have := ih h; omega
    · have := ih h; omega

theorem Op.Outcome.reveals {c : Cid} {w0 w : World α} {d : List (Ev α)} {r : Ret α β} {op : Op α β}
    {P : Nat → Prop} (hP : ∀ {n}, LenOK c w0 n w → ∀ i, i < n → P i) (hn : ∀ i ∈ op.needs, P i)
    (h : op.Outcome c w0 w d r) :
    (∀ i ∈ r.elements, P i) ∧ (∀ i ∈ r.pointers, (w.spec.val i).isSome) := by
  have triv : ∀ {r : Ret α β}, r.elements = [] → r.pointers = [] →
    (∀ i ∈ r.elements, P i) ∧ (∀ i ∈ r.pointers, (w.spec.val i).isSome) :=
    fun h1 h2 => by simp [h1, h2]
  have rng : ∀ {n a k : Nat}, LenOK c w0 n w → a + k ≤ n → ∀ i ∈ positions a k, P i :=
    fun hl hk i hi => hP hl i (by have := mem_positions.1 hi; omega)
  cases op with
  | push v => obtain ⟨i, -, rfl, -⟩ := h; exact triv rfl rfl
  | pushForIdx f => obtain ⟨i, v, -, rfl, -⟩ := h; exact triv rfl rfl
  | extend it => obtain ⟨b, rfl, -⟩ := h; exact triv rfl rfl
  | extendN items n => obtain ⟨b, rfl, -⟩ := h; exact triv rfl rfl
  | extendForIdx f n => obtain ⟨b, it, rfl, -⟩ := h; exact triv rfl rfl
  | len => obtain ⟨n, -, rfl, -⟩ := h; exact triv rfl rfl
  | isEmpty => obtain ⟨n, -, rfl, -⟩ := h; exact triv rfl rfl
  | capacity => obtain ⟨n, -, -, rfl, -⟩ := h; exact triv rfl rfl
  | maximumCapacity => obtain ⟨rfl, -⟩ := h; exact triv rfl rfl
  | get i =>
    obtain ⟨n, hl, rfl, -⟩ := h
    refine ⟨fun j hj => ?_, by simp [Ret.pointers]⟩
    simp only [Ret.elements] at hj
    split at hj
    · simp at hj; subst hj; exact hP hl _ (by assumption)
    · simp at hj
  | index i =>
    obtain ⟨n, hl, hi, rfl, -⟩ := h
    refine ⟨fun j hj => ?_, by simp [Ret.pointers]⟩
    simp only [Ret.elements, List.mem_singleton] at hj
    subst hj; exact hP hl _ hi
  | getCloned i =>
    rcases h with ⟨v, rfl, -⟩ | ⟨rfl, -⟩ <;> exact triv rfl rfl
  | iter =>
    obtain ⟨n, hl, rfl, -⟩ := h
    refine ⟨fun j hj => ?_, by simp [Ret.pointers]⟩
    simp only [Ret.elements, List.mem_range] at hj
    exact hP hl _ hj
  | iterCloned => obtain ⟨n, vs, -, rfl, -⟩ := h; exact triv rfl rfl
  | cloneToVec => obtain ⟨n, vs, -, rfl, -⟩ := h; exact triv rfl rfl
  | map f => obtain ⟨n, bs, -, rfl, -⟩ := h; exact triv rfl rfl
  | filter f =>
    obtain ⟨n, l, hl, rfl, vs, hvs, -, -, rfl⟩ := h
    refine ⟨fun j hj => ?_, by simp [Ret.pointers]⟩
    have := selected_mem f vs 0 j hj
    exact hP hl _ (by omega)
  | fold f init => obtain ⟨n, bs, -, rfl, -⟩ := h; exact triv rfl rfl
  | visit f init => obtain ⟨n, o, -, rfl, -⟩ := h; exact triv rfl rfl
  | reduce f => obtain ⟨n, bs, -, rfl, -⟩ := h; exact triv rfl rfl
  | indexOf veq v => obtain ⟨n, bs, -, rfl, -⟩ := h; exact triv rfl rfl
  | contains veq v => obtain ⟨n, bs, -, rfl, -⟩ := h; exact triv rfl rfl
  | eqList veq vs => obtain ⟨n, bs, -, rfl, -⟩ := h; exact triv rfl rfl
  | debug s => obtain ⟨n, bs, -, rfl, -⟩ := h; exact triv rfl rfl
  | slice rg =>
    obtain ⟨n, hl, rfl, -⟩ := h
    refine ⟨fun j hj => rng hl ?_ j hj, by simp [Ret.pointers]⟩
    have := slice_sub ⟨0, n⟩ rg
    simp only [Slc.slice] at this
    simp only
    omega
  | asSlice =>
    obtain ⟨n, hl, rfl, -⟩ := h
    exact ⟨fun j hj => rng hl (by simp) j hj, by simp [Ret.pointers]⟩
  | splitAt mid =>
    obtain ⟨n, hl, hm, rfl, -⟩ := h
    refine ⟨fun j hj => ?_, by simp [Ret.pointers]⟩
    simp only [Ret.elements, List.mem_append] at hj
    rcases hj with hj | hj
    · exact rng hl (by omega) j hj
    · exact rng hl (by omega) j hj
  | splitFirst =>
    obtain ⟨-, ⟨-, rfl⟩ | ⟨n, hl, hm, rfl⟩⟩ := h
    · exact triv rfl rfl
    · refine ⟨fun j hj => ?_, by simp [Ret.pointers]⟩
      simp only [Ret.elements, List.mem_cons] at hj
      rcases hj with rfl | hj
      · exact hP hl _ (by omega)
      · exact rng hl (by omega) j hj
  | splitLast =>
    obtain ⟨-, ⟨-, rfl⟩ | ⟨n, hl, hm, rfl⟩⟩ := h
    · exact triv rfl rfl
    · refine ⟨fun j hj => ?_, by simp [Ret.pointers]⟩
      simp only [Ret.elements, List.mem_cons] at hj
      rcases hj with rfl | hj
      · exact hP hl _ (by omega)
      · exact rng hl (by omega) j hj
  | chunks k =>
    obtain ⟨n, hl, hk, -, rfl⟩ := h
    refine ⟨fun j hj => ?_, by simp [Ret.pointers]⟩
    simp only [Ret.elements, List.mem_flatMap, List.mem_map] at hj
    obtain ⟨s, ⟨i, -, rfl⟩, hj⟩ := hj
    have := slice_sub ⟨0, n⟩ (chunkRange n k i)
    simp only at this
    exact rng hl (by omega) j hj
  | getRaw o i =>
    obtain ⟨-, ⟨rfl, hp⟩ | ⟨rfl, -⟩⟩ := h
    · refine ⟨by simp [Ret.elements], fun j hj => ?_⟩
      simp only [Ret.pointers, Option.toList_some, List.mem_singleton] at hj
      subst hj; exact hp
    · exact triv rfl rfl
  | iterRef o =>
    obtain ⟨-, n, l, rfl, hraw, -⟩ := h
    exact ⟨by simp [Ret.elements], fun j hj => (hraw.mem j hj).2.2⟩
  | swap m i j => rcases h with ⟨n, -, -, -, -, rfl, -⟩ | ⟨rfl, -⟩ <;> exact triv rfl rfl
  | fill v => obtain ⟨n, -, rfl, -⟩ := h; exact triv rfl rfl
  | fillWith f => obtain ⟨n, -, rfl, -⟩ := h; exact triv rfl rfl
  | elCloned e => obtain ⟨v, rfl, -⟩ := h; exact triv rfl rfl
  | elMap f e => obtain ⟨v, b, rfl, -⟩ := h; exact triv rfl rfl
  | elReplace e v => obtain ⟨v, rfl, -⟩ := h; exact triv rfl rfl
  | elSet e v => obtain ⟨v, rfl, -⟩ := h; exact triv rfl rfl
  | elUpdate f e => obtain ⟨v, rfl, -⟩ := h; exact triv rfl rfl
  | elEq veq v e => obtain ⟨v, rfl, -⟩ := h; exact triv rfl rfl
  | slLen s => obtain ⟨rfl, -⟩ := h; exact triv rfl rfl
  | slIsEmpty s => obtain ⟨rfl, -⟩ := h; exact triv rfl rfl
  | slGet s i =>
    obtain ⟨rfl, -⟩ := h
    refine ⟨fun j hj => ?_, by simp [Ret.pointers]⟩
    simp only [Ret.elements] at hj
    split at hj
    · simp at hj; subst hj; exact hn _ (mem_positions.2 (by omega))
    · simp at hj
  | slIndex s i =>
    obtain ⟨hi, rfl, -⟩ := h
    refine ⟨fun j hj => ?_, by simp [Ret.pointers]⟩
    simp only [Ret.elements, List.mem_singleton] at hj
    subst hj; exact hn _ (mem_positions.2 (by omega))
  | slGetCloned s i => rcases h with ⟨-, v, rfl, -⟩ | ⟨-, rfl, -⟩ <;> exact triv rfl rfl
  | slIter s =>
    obtain ⟨rfl, -⟩ := h
    exact ⟨fun j hj => hn j hj, by simp [Ret.pointers]⟩
  | slIterCloned s => obtain ⟨vs, rfl, -⟩ := h; exact triv rfl rfl
  | slMap s f => obtain ⟨vs, rfl, -⟩ := h; exact triv rfl rfl
  | slFilter s f =>
    obtain ⟨l, rfl, vs, hvs, -, -, rfl⟩ := h
    refine ⟨fun j hj => ?_, by simp [Ret.pointers]⟩
    have := selected_mem f vs s.a j hj
    exact hn _ (mem_positions.2 (by omega))
  | slFold s f init => obtain ⟨vs, rfl, -⟩ := h; exact triv rfl rfl
  | slVisit s f init => obtain ⟨vs, rfl, -⟩ := h; exact triv rfl rfl
  | slReduce s f => obtain ⟨vs, rfl, -⟩ := h; exact triv rfl rfl
  | slIndexOf s veq v => obtain ⟨vs, rfl, -⟩ := h; exact triv rfl rfl
  | slContains s veq v => obtain ⟨vs, rfl, -⟩ := h; exact triv rfl rfl
  | slEqList s veq vs => obtain ⟨vs, rfl, -⟩ := h; exact triv rfl rfl
  | slDebug s sh => obtain ⟨vs, rfl, -⟩ := h; exact triv rfl rfl
  | slSlice s rg =>
    obtain ⟨rfl, -⟩ := h
    refine ⟨fun j hj => ?_, by simp [Ret.pointers]⟩
    have h1 := slice_sub s rg
    have h2 := mem_positions.1 hj
    exact hn _ (mem_positions.2 (by omega))
  | slSplitAt s mid =>
    obtain ⟨hm, rfl, -⟩ := h
    refine ⟨fun j hj => ?_, by simp [Ret.pointers]⟩
    simp only [Ret.elements, List.mem_append] at hj
    rcases hj with hj | hj
    all_goals
      have h2 := mem_positions.1 hj
      exact hn _ (mem_positions.2 (by omega))
  | slSplitFirst s =>
    obtain ⟨-, ⟨-, rfl⟩ | ⟨hm, rfl⟩⟩ := h
    · exact triv rfl rfl
    · refine ⟨fun j hj => ?_, by simp [Ret.pointers]⟩
      simp only [Ret.elements, List.mem_cons] at hj
      rcases hj with rfl | hj
      · exact hn _ (mem_positions.2 (by omega))
      · have h2 := mem_positions.1 hj
        exact hn _ (mem_positions.2 (by omega))
  | slSplitLast s =>
    obtain ⟨-, ⟨-, rfl⟩ | ⟨hm, rfl⟩⟩ := h
    · exact triv rfl rfl
    · refine ⟨fun j hj => ?_, by simp [Ret.pointers]⟩
      simp only [Ret.elements, List.mem_cons] at hj
      rcases hj with rfl | hj
      · exact hn _ (mem_positions.2 (by omega))
      · have h2 := mem_positions.1 hj
        exact hn _ (mem_positions.2 (by omega))
  | slChunks s k =>
    obtain ⟨hk, -, rfl⟩ := h
    refine ⟨fun j hj => ?_, by simp [Ret.pointers]⟩
    simp only [Ret.elements, List.mem_flatMap, List.mem_map] at hj
    obtain ⟨s', ⟨i, -, rfl⟩, hj⟩ := hj
    have h1 := slice_sub s (chunkRange s.len k i)
    have h2 := mem_positions.1 hj
    exact hn _ (mem_positions.2 (by omega))
  | slGetRaw s o i =>
    obtain ⟨-, ⟨-, rfl, hp⟩ | ⟨rfl, -⟩⟩ := h
    · refine ⟨by simp [Ret.elements], fun j hj => ?_⟩
      simp only [Ret.pointers, Option.toList_some, List.mem_singleton] at hj
      subst hj; exact hp
    · exact triv rfl rfl
  | slIterRef s o =>
    obtain ⟨-, l, rfl, hraw⟩ := h
    exact ⟨by simp [Ret.elements], fun j hj => (hraw.mem j hj).2.2⟩
  | slSwap m s i j => rcases h with ⟨-, -, -, rfl, -⟩ | ⟨rfl, -⟩ <;> exact triv rfl rfl
  | slFill s v => obtain ⟨rfl, -⟩ := h; exact triv rfl rfl
  | slFillWith s f => obtain ⟨rfl, -⟩ := h; exact triv rfl rfl
  | deref e => obtain ⟨v, rfl, -⟩ := h; exact triv rfl rfl

/-! ## Preservation -/

theorem exec_trace {w w' : World α} {c : Cid} {a : Act α} {b : a.Resp} (he : w.exec c a = some (w', b)) :
    w'.trace = w.trace ++ a.events c w b := by
  unfold World.exec at he
  split at he
  · cases he
  · simp only [Option.some.injEq, Prod.mk.injEq] at he
    obtain ⟨rfl, rfl⟩ := he
    rfl

theorem events_length {w : World α} {c : Cid} {a : Act α} {b : a.Resp} : (a.events c w b).length ≤ 1 := by
  cases a <;> simp only [Act.events] <;> repeat' split
  all_goals simp

/-- An event of the new trace was there before, or is the event of the action. -/
theorem exec_trace_split {w w' : World α} {c : Cid} {a : Act α} {b : a.Resp} {t1 t2 : List (Ev α)} {e : Ev α}
    (he : w.exec c a = some (w', b)) (h : w'.trace = t1 ++ e :: t2) :
    (∃ t2', w.trace = t1 ++ e :: t2') ∨ (t1 = w.trace ∧ e ∈ a.events c w b) := by
  rw [exec_trace he] at h
  have hl := events_length (w := w) (c := c) (b := b)
  rcases hev : a.events c w b with _ | ⟨x, _ | ⟨y, l⟩⟩
  · rw [hev, List.append_nil] at h
    exact .inl ⟨t2, h⟩
  · rw [hev] at h
    rcases List.eq_nil_or_concat t2 with rfl | ⟨t2', y, rfl⟩
    · obtain ⟨h1, h2⟩ := List.append_inj' h rfl
      simp only [List.cons.injEq, and_true] at h2
      exact .inr ⟨h1.symm, by simp [h2]⟩
    · refine .inl ⟨t2', ?_⟩
      rw [List.concat_eq_append, ← List.cons_append, ← List.append_assoc] at h
      exact (List.append_inj' h rfl).1
  · rw [hev] at hl; simp at hl

theorem busy_event {w : World α} {c c' : Cid} {i : Nat} {d : Cid} {a : Act α} {b : a.Resp}
    (h : Ev.busy c' i d ∈ a.events c w b) : c' = c ∧ w.holder i = some d := by
  cases a with
  | stLoad j o =>
    simp only [Act.events] at h
    split at h
    · simp at h
    · simp at h
    · rcases hh : w.holder j with _ | d'
      · simp [hh] at h
      · simp only [hh, List.mem_singleton, Ev.busy.injEq] at h
        obtain ⟨rfl, rfl, rfl⟩ := h
        exact ⟨rfl, hh⟩
  | stStore j s o =>
    simp only [Act.events] at h
    split at h
    · split at h <;> simp at h
    · simp at h
  | valWrite j v =>
    simp only [Act.events] at h
    split at h
    · split at h <;> simp at h
    · simp at h
  | _ => simp [Act.events] at h

theorem reserveMax_inv {σ₀ : SpecSt α} {w : World α} (hI : Inv σ₀ w) (hg : w.grower = none) (n : Nat) :
    Inv σ₀ { w with mem := { w.mem with maxCap := w.mem.pol.reserve w.mem.maxCap n } } ∧
    Evolves w { w with mem := { w.mem with maxCap := w.mem.pol.reserve w.mem.maxCap n } } := by
  have hr := w.mem.pol.reserve_ok hI.good (n := n)
  constructor
  · exact ⟨hI.replay, hI.len_eq, hI.pub_len, hI.pub_cap, hI.st_none, hI.val_eq, hI.lock, hI.written, hI.uninit,
      hI.unres, hr.2, hI.cap_alloc, hI.growing, hI.grow_none, fun c hc => by simp [hg] at hc⟩
  · exact ⟨Nat.le_refl _, fun _ _ => rfl, fun _ h => h, Nat.le_refl _, Nat.le_refl _, List.prefix_rfl,
      hr.1, rfl⟩

theorem CfgInv.init {m : Mem α} {l : List α} (hm : InitMem m l) : CfgInv (.ofList l) (Cfg.init m l : Cfg α β) where
  inv := by
    have hst := hm.st
    have hval := hm.val
    refine ⟨.nil, hm.reserved, ?_, ?_, ?_, ?_, ?_, ?_, ?_, ?_, hm.good, ?_, ?_, ?_, ?_⟩
    · intro i hi; simpa [Cfg.init, World.init, SpecSt.ofList] using hi
    · intro i hi
      have := hm.cap
      simp [Cfg.init, World.init, SpecSt.ofList] at hi ⊢; omega
    · intro i
      simp only [Cfg.init, World.init, SpecSt.ofList, hst i]
      by_cases hi : i < l.length <;> simp [hi]
    · intro i hi; exact hval i
    · intro i
      simp only [Cfg.init, World.init, hst i]
      split <;> simp
    · intro i hi
      have := hm.written
      simp [Cfg.init, World.init, SpecSt.ofList] at hi ⊢; omega
    · intro i hi
      have := hm.cap
      simp only [Cfg.init, World.init, hval i] at hi ⊢
      simp; omega
    · intro i hi
      simp only [Cfg.init, World.init, hval i, SpecSt.ofList] at hi ⊢
      simp; omega
    · have := hm.alloc; simp [Cfg.init, World.init]; omega
    · simp [Cfg.init, World.init, hm.growing]
    · intro _; exact hm.alloc
    · intro c hc; simp [Cfg.init, World.init] at hc
  noUB := rfl
  fresh := fun c _ => by
    refine ⟨⟨.refl _, rfl, ?_, ?_, rfl, ?_⟩, fun _ hi => hi.elim⟩
    · intro i; simp [Cfg.init, World.init, noPos]
    · intro i
      simp only [Cfg.init, World.init, SpecSt.ofList, noPos, iff_false]
      rintro ⟨h1, -, h2⟩
      simp at h2; omega
    · simp [Cfg.init, World.init]
  next := fun c r h => by simp [Cfg.init] at h
  pos := by simp [Cfg.init]
  start := fun c r h => by simp [Cfg.init] at h
  status := fun c r h => by simp [Cfg.init] at h
  snap := fun t w ⟨c, r, h, _⟩ => by simp [Cfg.init] at h
  order := fun t w t' w' ⟨c, r, h, _⟩ => by simp [Cfg.init] at h
  events := fun t1 e t2 h => by simp [Cfg.init, World.init] at h
  busy := fun c i d h => by simp [Cfg.init, World.init] at h

theorem setStatus_cases {κ : Cfg α β} {c c' : Cid} {r r' : Rec α β} {s : Status α β}
    (h : κ.setStatus c r s c' = some r') :
    (c' = c ∧ r' = { r with status := s }) ∨ (c' ≠ c ∧ κ.calls c' = some r') := by
  simp only [Cfg.setStatus, upd_apply] at h
  split at h
  · rename_i hc; left; simp at h; exact ⟨hc, h.symm⟩
  · rename_i hc; right; exact ⟨hc, h⟩

theorem CfgInv.revealed {σ₀ : SpecSt α} {κ : Cfg α β} (h : CfgInv σ₀ κ) {i : Nat} (hr : κ.Revealed i) :
    (κ.w.spec.val i).isSome := by
  obtain ⟨c, x, op, ct, st, et, fin, hc, hi⟩ := hr
  have hs := h.status c _ hc
  obtain ⟨-, hI, ⟨d, hL, ho⟩, he⟩ := hs
  exact he.ev.pub _ ((ho.reveals (P := fun i => (fin.spec.val i).isSome) LenOK.pub fun i hi =>
    hL.ev.pub _ ((h.start c _ hc).needs i hi)).1 i hi)

theorem CfgInv.revealedPtr {σ₀ : SpecSt α} {κ : Cfg α β} (h : CfgInv σ₀ κ) {i : Nat} (hr : κ.RevealedPtr i) :
    (κ.w.spec.val i).isSome := by
  obtain ⟨c, x, op, ct, st, et, fin, hc, hi⟩ := hr
  have hs := h.status c _ hc
  obtain ⟨-, hI, ⟨d, hL, ho⟩, he⟩ := hs
  exact he.ev.pub _ ((ho.reveals (P := fun i => (fin.spec.val i).isSome) LenOK.pub fun i hi =>
    hL.ev.pub _ ((h.start c _ hc).needs i hi)).2 i hi)

/-- The holder of an element is a running call. -/
theorem CfgInv.holder {σ₀ : SpecSt α} {κ : Cfg α β} (h : CfgInv σ₀ κ) {i : Nat} {d : Cid}
    (hh : κ.w.holder i = some d) : ∃ r p, κ.calls d = some r ∧ r.status = .running p := by
  rcases hd : κ.calls d with _ | r
  · exact (((h.fresh d hd).locks i).1 hh).elim
  · have hs := h.status d r hd
    rcases hst : r.status with p | ⟨x, t, fin⟩ | ⟨k, t, fin⟩
    · exact ⟨r, p, rfl, hst⟩
    · simp only [StatusOK, hst] at hs
      exact ((hs.2.2.2.loc.locks i).1 hh).elim
    · simp only [StatusOK, hst] at hs
      exact ((hs.2.2.2.loc.locks i).1 hh).elim

/-- The call that is allocating is running. -/
theorem CfgInv.grower {σ₀ : SpecSt α} {κ : Cfg α β} (h : CfgInv σ₀ κ) {d : Cid}
    (hh : κ.w.grower = some d) : ∃ r p, κ.calls d = some r ∧ r.status = .running p := by
  rcases hd : κ.calls d with _ | r
  · exact ((h.fresh d hd).grow.1 hh).elim
  · have hs := h.status d r hd
    rcases hst : r.status with p | ⟨x, t, fin⟩ | ⟨k, t, fin⟩
    · exact ⟨r, p, rfl, hst⟩
    · simp only [StatusOK, hst] at hs
      exact (hs.2.2.2.loc.grow.1 hh).elim
    · simp only [StatusOK, hst] at hs
      exact (hs.2.2.2.loc.grow.1 hh).elim

/-- Facts about the next action of a running call. -/
theorem CfgInv.running {σ₀ : SpecSt α} {κ : Cfg α β} (h : CfgInv σ₀ κ) {c : Cid} {r : Rec α β}
    {p : Prog α (Ret α β)} (hc : κ.calls c = some r) (hr : r.status = .running p) :
    Safe (r.op.ctx σ₀ c) (Post r.op c r.start) (PPost r.op c r.start) p κ.w ∧
      κ.w.mem.maxCap = r.start.mem.maxCap := by
  have hs := h.status c r hc
  simpa only [StatusOK, hr] using hs

theorem CfgInv.invoke {σ₀ : SpecSt α} {κ : Cfg α β} (h : CfgInv σ₀ κ) (op : Op α β)
    (hn : ∀ i ∈ op.needs, κ.Revealed i) (hp : ∀ i ∈ op.needsPtr, κ.RevealedPtr i) :
    CfgInv σ₀ { κ with
        calls := upd κ.calls κ.next (some ⟨op, κ.clock, κ.w, .running op.prog⟩)
        next := κ.next + 1
        clock := κ.clock + 1 } := by
  have hnone : κ.calls κ.next = none := by
    rcases hk : κ.calls κ.next with _ | r
    · rfl
    · exact absurd (h.next _ _ hk).2 (Nat.lt_irrefl _)
  have look : ∀ c' r', upd κ.calls κ.next (some ⟨op, κ.clock, κ.w, .running op.prog⟩) c' = some r' →
      (c' = κ.next ∧ r' = ⟨op, κ.clock, κ.w, .running op.prog⟩) ∨ (c' ≠ κ.next ∧ κ.calls c' = some r') := by
    intro c' r' hr'
    simp only [upd_apply] at hr'
    split at hr'
    · rename_i hc; left; simp at hr'; exact ⟨hc, hr'.symm⟩
    · rename_i hc; right; exact ⟨hc, hr'⟩
  have keep : ∀ c' r', κ.calls c' = some r' →
      upd κ.calls κ.next (some ⟨op, κ.clock, κ.w, .running op.prog⟩) c' = some r' := by
    intro c' r' hr'
    rw [upd_apply, if_neg]
    · exact hr'
    · rintro rfl; rw [hnone] at hr'; cases hr'
  have snap : ∀ t w, Cfg.Snap { κ with
        calls := upd κ.calls κ.next (some ⟨op, κ.clock, κ.w, .running op.prog⟩)
        next := κ.next + 1
        clock := κ.clock + 1 } t w → (t = κ.clock ∧ w = κ.w) ∨ κ.Snap t w := by
    rintro t w ⟨c', r', hr', hor⟩
    rcases look c' r' hr' with ⟨rfl, rfl⟩ | ⟨hne, hr'⟩
    · rcases hor with hor | hor
      · exact .inl hor
      · simp [Status.ended] at hor
    · exact .inr ⟨c', r', hr', hor⟩
  constructor
  · exact h.inv
  · exact h.noUB
  · intro c hc
    refine h.fresh c ?_
    simp only [upd_apply] at hc
    split at hc
    · cases hc
    · exact hc
  · intro c' r' hr'
    rcases look c' r' hr' with ⟨rfl, rfl⟩ | ⟨hne, hr'⟩
    · exact ⟨h.pos, Nat.lt_succ_self _⟩
    · have := h.next c' r' hr'; exact ⟨this.1, Nat.lt_succ_of_lt this.2⟩
  · exact Nat.succ_pos _
  · intro c' r' hr'
    rcases look c' r' hr' with ⟨rfl, rfl⟩ | ⟨hne, hr'⟩
    · exact ⟨h.inv, h.fresh _ hnone, fun i hi => h.revealed (hn i hi), fun i hi => h.revealedPtr (hp i hi)⟩
    · have := h.start c' r' hr'
      exact ⟨this.inv, this.loc, this.needs, this.needsPtr⟩
  · intro c' r' hr'
    rcases look c' r' hr' with ⟨rfl, rfl⟩ | ⟨hne, hr'⟩
    · exact ⟨opSafe op h.inv (h.fresh _ hnone) (fun i hi => h.revealed (hn i hi))
        (fun i hi => h.revealedPtr (hp i hi)), rfl⟩
    · exact h.status c' r' hr'
  · intro t w hs
    rcases snap t w hs with ⟨rfl, rfl⟩ | hs
    · exact ⟨Nat.lt_succ_self _, .refl _⟩
    · have := h.snap t w hs; exact ⟨by simp only; omega, this.2⟩
  · intro t w t' w' hs hs' hlt
    rcases snap t w hs with ⟨rfl, rfl⟩ | hs
    · rcases snap t' w' hs' with ⟨rfl, rfl⟩ | hs'
      · omega
      · have := (h.snap t' w' hs').1; omega
    · rcases snap t' w' hs' with ⟨rfl, rfl⟩ | hs'
      · exact (h.snap t w hs).2
      · exact h.order t w t' w' hs hs' hlt
  · intro t1 e t2 he
    obtain ⟨r, hr, ho⟩ := h.events t1 e t2 he
    exact ⟨r, keep _ _ hr, ho⟩
  · intro c i d hb
    obtain ⟨r1, r2, h1, h2, h3⟩ := h.busy c i d hb
    exact ⟨r1, r2, keep _ _ h1, keep _ _ h2, h3⟩

theorem CfgInv.act {σ₀ : SpecSt α} {κ : Cfg α β} (h : CfgInv σ₀ κ) {c : Cid} {r : Rec α β} {a : Act α}
    {again : a.Resp → Bool} {k : a.Resp → Prog α (Ret α β)} {w' : World α} {b : a.Resp}
    (hc : κ.calls c = some r) (hr : r.status = .running (.step a again k))
    (he : κ.w.exec c a = some (w', b)) :
    CfgInv σ₀ { κ with
        w := w'
        calls := κ.setStatus c r (.running (if again b then .step a again k else k b))
        clock := κ.clock + 1 } := by
  obtain ⟨hsafe, hmax⟩ := h.running hc hr
  obtain ⟨hpre, hk⟩ := hsafe _ h.inv (.refl _ _)
  obtain ⟨hA, hag, hnext⟩ := hk w' b he
  have hpre' : Pre r.op.raw c κ.w a := hpre
  obtain ⟨hI', hrely⟩ := exec_inv h.inv hpre' he
  have hev : Evolves κ.w w' := (hrely (c + 1) (Nat.succ_ne_self c)).ev
  have hmx : w'.mem.maxCap = κ.w.mem.maxCap := (hrely (c + 1) (Nat.succ_ne_self c)).maxCap
  have keep : ∀ c' r', κ.calls c' = some r' → ∃ r'', κ.setStatus c r
      (.running (if again b then .step a again k else k b)) c' = some r'' ∧ r''.op = r'.op ∧
      r''.callT = r'.callT ∧ r''.status.ended = r'.status.ended := by
    intro c' r' hr'
    simp only [Cfg.setStatus, upd_apply]
    split
    · rename_i hcc; subst hcc
      rw [hc] at hr'
      simp only [Option.some.injEq] at hr'
      subst hr'
      exact ⟨_, rfl, rfl, rfl, by simp [hr, Status.ended]⟩
    · exact ⟨r', hr', rfl, rfl, rfl⟩
  have snap : ∀ t w, Cfg.Snap { κ with
        w := w'
        calls := κ.setStatus c r (.running (if again b then .step a again k else k b))
        clock := κ.clock + 1 } t w → κ.Snap t w := by
    rintro t w ⟨c', r', hr', hor⟩
    rcases setStatus_cases hr' with ⟨rfl, rfl⟩ | ⟨hne, hr'⟩
    · refine ⟨_, r, hc, ?_⟩
      rcases hor with hor | hor
      · exact .inl hor
      · simp [Status.ended] at hor
    · exact ⟨c', r', hr', hor⟩
  constructor
  · exact hI'
  · exact h.noUB
  · intro c' hc'
    have hc0 : c' ≠ c ∧ κ.calls c' = none := by
      simp only [Cfg.setStatus, upd_apply] at hc'
      split at hc'
      · cases hc'
      · exact ⟨by assumption, hc'⟩
    exact ((h.fresh c' hc0.2).stable h.inv (hrely c' hc0.1)).rebase
  · intro c' r' hr'
    rcases setStatus_cases hr' with ⟨rfl, rfl⟩ | ⟨hne, hr'⟩
    · exact h.next _ _ hc
    · exact h.next _ _ hr'
  · exact h.pos
  · intro c' r' hr'
    rcases setStatus_cases hr' with ⟨rfl, rfl⟩ | ⟨hne, hr'⟩
    · have := h.start _ _ hc
      exact ⟨this.inv, this.loc, this.needs, this.needsPtr⟩
    · have := h.start _ _ hr'
      exact ⟨this.inv, this.loc, this.needs, this.needsPtr⟩
  · intro c' r' hr'
    rcases setStatus_cases hr' with ⟨rfl, rfl⟩ | ⟨hne, hr'⟩
    · refine ⟨?_, by simp only; rw [hmx, hmax]⟩
      simp only
      by_cases hb : again b = true
      · rw [if_pos hb]
        obtain ⟨rfl, -⟩ := hag hb
        exact hsafe
      · rw [if_neg hb]
        exact hnext (by simpa using hb)
    · have hs := h.status _ _ hr'
      unfold StatusOK at hs ⊢
      split at hs
      · exact ⟨hs.1.stable (hrely c' hne), by simp only; rw [hmx]; exact hs.2⟩
      · exact ⟨hs.1, hs.2.1, hs.2.2.1, hs.2.2.2.stable h.inv (hrely c' hne)⟩
      · exact ⟨hs.1, hs.2.1, hs.2.2.1, hs.2.2.2.stable h.inv (hrely c' hne)⟩
  · intro t w hs
    have := h.snap t w (snap t w hs)
    exact ⟨by simp only; omega, this.2.trans hev⟩
  · intro t w t' w'' hs hs' hlt
    exact h.order t w t' w'' (snap _ _ hs) (snap _ _ hs') hlt
  · intro t1 e t2 hmem
    have hmem : w'.trace = t1 ++ e :: t2 := hmem
    rcases exec_trace_split he hmem with ⟨t2', hmem⟩ | ⟨rfl, hev⟩
    · obtain ⟨r', hr', ho⟩ := h.events t1 e t2' hmem
      obtain ⟨r'', h1, h2, -⟩ := keep _ _ hr'
      exact ⟨r'', h1, by rw [h2]; exact ho⟩
    · obtain ⟨hcid, ho⟩ := hA e hev
      obtain ⟨r'', h1, h2, -⟩ := keep _ _ hc
      have hcid : e.cid = c := hcid
      refine ⟨r'', ?_, by rw [h2, hcid]; exact ho⟩
      rw [hcid]; exact h1
  · intro c' i d hb
    have hb : Ev.busy c' i d ∈ w'.trace := hb
    rw [exec_trace he, List.mem_append] at hb
    rcases hb with hb | hb
    · obtain ⟨r1, r2, h1, h2, h3, h4⟩ := h.busy c' i d hb
      obtain ⟨r1', a1, a2, a3, a4⟩ := keep _ _ h1
      obtain ⟨r2', b1, b2, b3, b4⟩ := keep _ _ h2
      refine ⟨r1', r2', a1, b1, ?_, ?_⟩
      · simpa only [Rec.Before, a4, b3] using h3
      · simpa only [Rec.Before, b4, a3] using h4
    · obtain ⟨rfl, hh⟩ := busy_event hb
      obtain ⟨r2, p2, h2, hs2⟩ := h.holder hh
      obtain ⟨r1', a1, a2, a3, a4⟩ := keep _ _ hc
      obtain ⟨r2', b1, b2, b3, b4⟩ := keep _ _ h2
      refine ⟨r1', r2', a1, b1, ?_, ?_⟩
      · rintro ⟨t, f, ht, -⟩; rw [a4, hr] at ht; cases ht
      · rintro ⟨t, f, ht, -⟩; rw [b4, hs2] at ht; cases ht

/-- A running call ends. -/
theorem CfgInv.finish {σ₀ : SpecSt α} {κ : Cfg α β} (h : CfgInv σ₀ κ) {c : Cid} {r : Rec α β}
    (hc : κ.calls c = some r) (s : Status α β)
    (hs : s.ended = some (κ.clock, κ.w))
    (hok : StatusOK σ₀ κ c { r with status := s }) :
    CfgInv σ₀ { κ with
        calls := κ.setStatus c r s
        clock := κ.clock + 1 } := by
  have snap : ∀ t w, Cfg.Snap { κ with
        calls := κ.setStatus c r s
        clock := κ.clock + 1 } t w → (t = κ.clock ∧ w = κ.w) ∨ κ.Snap t w := by
    rintro t w ⟨c', r', hr', hor⟩
    rcases setStatus_cases hr' with ⟨rfl, rfl⟩ | ⟨hne, hr'⟩
    · rcases hor with hor | hor
      · exact .inr ⟨_, r, hc, .inl hor⟩
      · rw [hs] at hor
        simp only [Option.some.injEq, Prod.mk.injEq] at hor
        exact .inl ⟨hor.1.symm, hor.2.symm⟩
    · exact .inr ⟨c', r', hr', hor⟩
  have keep : ∀ c' r', κ.calls c' = some r' → ∃ r'', κ.setStatus c r s c' = some r'' ∧ r''.op = r'.op ∧
      r''.callT = r'.callT ∧ (r''.status.ended = r'.status.ended ∨ r''.status.ended = some (κ.clock, κ.w)) := by
    intro c' r' hr'
    simp only [Cfg.setStatus, upd_apply]
    split
    · rename_i hcc; subst hcc
      rw [hc] at hr'
      simp only [Option.some.injEq] at hr'
      subst hr'
      exact ⟨_, rfl, rfl, rfl, .inr hs⟩
    · exact ⟨r', hr', rfl, rfl, .inl rfl⟩
  have notBefore : ∀ c1 r1 c2 r2 r1' r2', κ.calls c1 = some r1 → κ.calls c2 = some r2 → ¬ r1.Before r2 →
      r2'.callT = r2.callT →
      (r1'.status.ended = r1.status.ended ∨ r1'.status.ended = some (κ.clock, κ.w)) →
      ¬ Rec.Before r1' (r2' : Rec α β) := by
    rintro c1 r1 c2 r2 r1' r2' h1 h2 hnb ht hor ⟨t, f, hte, hlt⟩
    rcases hor with hor | hor
    · rw [hor] at hte
      exact hnb ⟨t, f, hte, by omega⟩
    · rw [hor] at hte
      simp only [Option.some.injEq, Prod.mk.injEq] at hte
      have := (h.snap r2.callT r2.start ⟨c2, r2, h2, .inl ⟨rfl, rfl⟩⟩).1
      omega
  constructor
  · exact h.inv
  · exact h.noUB
  · intro c' hc'
    refine h.fresh c' ?_
    simp only [Cfg.setStatus, upd_apply] at hc'
    split at hc'
    · cases hc'
    · exact hc'
  · intro c' r' hr'
    rcases setStatus_cases hr' with ⟨rfl, rfl⟩ | ⟨hne, hr'⟩
    · exact h.next _ _ hc
    · exact h.next _ _ hr'
  · exact h.pos
  · intro c' r' hr'
    rcases setStatus_cases hr' with ⟨rfl, rfl⟩ | ⟨hne, hr'⟩
    · have := h.start _ _ hc
      exact ⟨this.inv, this.loc, this.needs, this.needsPtr⟩
    · have := h.start _ _ hr'
      exact ⟨this.inv, this.loc, this.needs, this.needsPtr⟩
  · intro c' r' hr'
    rcases setStatus_cases hr' with ⟨rfl, rfl⟩ | ⟨hne, hr'⟩
    · exact hok
    · exact h.status _ _ hr'
  · intro t w hs'
    rcases snap t w hs' with ⟨rfl, rfl⟩ | hs'
    · exact ⟨Nat.lt_succ_self _, .refl _⟩
    · have := h.snap t w hs'; exact ⟨by simp only; omega, this.2⟩
  · intro t w t' w' h1 h2 hlt
    rcases snap t w h1 with ⟨rfl, rfl⟩ | h1
    · rcases snap t' w' h2 with ⟨rfl, rfl⟩ | h2
      · omega
      · have := (h.snap t' w' h2).1; omega
    · rcases snap t' w' h2 with ⟨rfl, rfl⟩ | h2
      · exact (h.snap t w h1).2
      · exact h.order t w t' w' h1 h2 hlt
  · intro t1 e t2 he
    obtain ⟨r', hr', ho⟩ := h.events t1 e t2 he
    obtain ⟨r'', h1, h2, -⟩ := keep _ _ hr'
    exact ⟨r'', h1, by rw [h2]; exact ho⟩
  · intro c' i d hb
    obtain ⟨r1, r2, h1, h2, h3, h4⟩ := h.busy c' i d hb
    obtain ⟨r1', a1, a2, a3, a4⟩ := keep _ _ h1
    obtain ⟨r2', b1, b2, b3, b4⟩ := keep _ _ h2
    exact ⟨r1', r2', a1, b1, notBefore _ _ _ _ _ _ h1 h2 h3 b3 a4, notBefore _ _ _ _ _ _ h2 h1 h4 a3 b4⟩

theorem CfgInv.reserveMax {σ₀ : SpecSt α} {κ : Cfg α β} (h : CfgInv σ₀ κ) (n : Nat) (hidle : κ.Idle) :
    CfgInv σ₀ { κ with
        w := { κ.w with mem := { κ.w.mem with maxCap := κ.w.mem.pol.reserve κ.w.mem.maxCap n } }
        clock := κ.clock + 1 } := by
  have hg : κ.w.grower = none := by
    rcases hg : κ.w.grower with _ | d
    · rfl
    · obtain ⟨r, p, hc, hr⟩ := h.grower hg
      rcases r with ⟨op, ct, st, s⟩
      simp only at hr
      subst hr
      exact (hidle d op ct st p hc).elim
  obtain ⟨hI', hev⟩ := reserveMax_inv h.inv hg n
  have hloc : ∀ {c : Cid} {U : Nat → Prop} {d : List (Ev α)}, Loc c κ.w noPos U d False κ.w →
      Loc c { κ.w with mem := { κ.w.mem with maxCap := κ.w.mem.pol.reserve κ.w.mem.maxCap n } } noPos U d False
        { κ.w with mem := { κ.w.mem with maxCap := κ.w.mem.pol.reserve κ.w.mem.maxCap n } } :=
    fun hl => ⟨⟨.refl _, rfl, hl.locks, hl.unpub, hl.data, hl.grow⟩, hl.clean⟩
  constructor
  · exact hI'
  · exact h.noUB
  · intro c hc; exact hloc (h.fresh c hc)
  · exact h.next
  · exact h.pos
  · intro c r hc
    have := h.start _ _ hc
    exact ⟨this.inv, this.loc, this.needs, this.needsPtr⟩
  · intro c r hc
    have hs := h.status c r hc
    have hnr : ∀ p, r.status ≠ .running p := by
      intro p hp
      rcases r with ⟨op, ct, st, s⟩
      simp only at hp
      subst hp
      exact hidle c op ct st p hc
    unfold StatusOK at hs ⊢
    split at hs
    · rename_i p hp; exact (hnr p hp).elim
    · exact ⟨hs.1, hs.2.1, hs.2.2.1, hs.2.2.2.ev.trans hev, hloc hs.2.2.2.loc⟩
    · exact ⟨hs.1, hs.2.1, hs.2.2.1, hs.2.2.2.ev.trans hev, hloc hs.2.2.2.loc⟩
  · intro t w hs
    have := h.snap t w hs
    exact ⟨by simp only; omega, this.2.trans hev⟩
  · exact h.order
  · exact h.events
  · exact h.busy

theorem CfgInv.step {σ₀ : SpecSt α} {κ κ' : Cfg α β} (h : CfgInv σ₀ κ) (hs : Step κ κ') : CfgInv σ₀ κ' := by
  cases hs with
  | invoke op hn hp => exact h.invoke op hn hp
  | act c r a again k w' b hc hr he => exact h.act hc hr he
  | ub c r a again k hc hr he =>
    obtain ⟨hsafe, -⟩ := h.running hc hr
    obtain ⟨hpre, -⟩ := hsafe _ h.inv (.refl _ _)
    have hpre' : Pre r.op.raw c κ.w a := hpre
    obtain ⟨w', b, he', -⟩ := exec_ok h.inv hpre'
    rw [he] at he'; cases he'
  | ret c r x hc hr =>
    refine h.finish hc _ rfl ?_
    obtain ⟨hsafe, -⟩ := h.running hc hr
    have hpost := hsafe _ h.inv (.refl _ _)
    obtain ⟨d, hL, ho⟩ := hpost
    have ht := (h.snap r.callT r.start ⟨c, r, hc, .inl ⟨rfl, rfl⟩⟩).1
    exact ⟨ht, h.inv, ⟨d, hL, ho⟩, .of_loc hL⟩
  | panic c r k hc hr =>
    refine h.finish hc _ rfl ?_
    obtain ⟨hsafe, -⟩ := h.running hc hr
    have hpost := hsafe _ h.inv (.refl _ _)
    obtain ⟨U, d, hL, ho⟩ := hpost
    have ht := (h.snap r.callT r.start ⟨c, r, hc, .inl ⟨rfl, rfl⟩⟩).1
    exact ⟨ht, h.inv, ⟨U, d, hL, ho⟩, .of_loc hL⟩
  | reserveMax n hidle => exact h.reserveMax n hidle

/-- All reachable configurations satisfy the invariant. -/
theorem Reach.inv {m : Mem α} {l : List α} (hm : InitMem m l) {κ : Cfg α β} (h : Reach m l κ) :
    CfgInv (.ofList l) κ := by
  induction h with
  | init => exact .init hm
  | step _ hs ih => exact ih.step hs

end Verif
