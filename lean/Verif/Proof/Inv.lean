import Verif.Model.Conc

/-!
# Global invariant, rely relation, and the effect of the primitive actions

Helper file (no property statements).
-/

namespace Verif

variable {α β : Type}

/-- Global invariant: memory and abstract vector agree. -/
structure Inv (σ₀ : SpecSt α) (w : World α) : Prop where
  replay : Replay σ₀ w.trace w.spec
  len_eq : w.mem.reserved = w.spec.len
  pub_len : ∀ i, (w.spec.val i).isSome → i < w.spec.len
  pub_cap : ∀ i, (w.spec.val i).isSome → i < w.mem.cap
  st_none : ∀ i, w.mem.st i = .NONE ↔ w.spec.val i = none
  val_eq : ∀ i, (w.spec.val i).isSome → w.mem.val i = w.spec.val i
  lock : ∀ i, w.mem.st i = .RESERVED ↔ (w.holder i).isSome
  written : ∀ i, i < w.mem.written → (w.spec.val i).isSome
  uninit : ∀ i, w.mem.cap ≤ i → w.mem.val i = none
  unres : ∀ i, w.spec.len ≤ i → w.mem.val i = none
  good : w.mem.pol.good w.mem.cap w.mem.maxCap
  cap_alloc : w.mem.cap ≤ w.mem.alloc
  growing : w.mem.growing = w.grower.isSome
  grow_none : w.grower = none → w.mem.alloc = w.mem.cap
  grow_some : ∀ c, w.grower = some c → w.mem.cap < w.spec.len ∧ w.spec.owner w.mem.cap = c ∧
    w.mem.pol.good w.mem.alloc w.mem.maxCap

/-- What happens to a vector over time, whoever acts. -/
structure Evolves (w w' : World α) : Prop where
  len : w.spec.len ≤ w'.spec.len
  owner : ∀ i, i < w.spec.len → w'.spec.owner i = w.spec.owner i
  pub : ∀ i, (w.spec.val i).isSome → (w'.spec.val i).isSome
  written : w.mem.written ≤ w'.mem.written
  cap : w.mem.cap ≤ w'.mem.cap
  trace : w.trace <+: w'.trace
  maxCap : w.mem.maxCap ≤ w'.mem.maxCap
  pol : w'.mem.pol = w.mem.pol

/-- What call `c` may rely on while others act. -/
structure Rely (c : Cid) (w w' : World α) : Prop where
  ev : Evolves w w'
  maxCap : w'.mem.maxCap = w.mem.maxCap
  own : ∀ i, i < w.spec.len → w.spec.owner i = c → w.spec.val i = none →
    w'.spec.val i = none ∧ w'.mem.val i = w.mem.val i
  fresh : ∀ i, w.spec.len ≤ i → i < w'.spec.len → w'.spec.owner i ≠ c
  hold : ∀ i, w.holder i = some c → w'.holder i = some c ∧ w'.spec.val i = w.spec.val i
  nohold : ∀ i, w'.holder i = some c → w.holder i = some c
  capOwn : w.mem.cap < w.spec.len → w.spec.owner w.mem.cap = c →
    w'.mem.cap = w.mem.cap ∧ w'.grower = w.grower ∧ w'.mem.alloc = w.mem.alloc
  nogrow : w'.grower = some c → w.grower = some c
  data : dataOf c w'.trace = dataOf c w.trace

theorem Evolves.refl (w : World α) : Evolves w w :=
  ⟨Nat.le_refl _, fun _ _ => rfl, fun _ h => h, Nat.le_refl _, Nat.le_refl _, List.prefix_rfl,
    Nat.le_refl _, rfl⟩

theorem Evolves.trans {w w' w'' : World α} (h : Evolves w w') (h' : Evolves w' w'') : Evolves w w'' where
  len := Nat.le_trans h.len h'.len
  owner := fun i hi => by rw [h'.owner i (Nat.lt_of_lt_of_le hi h.len), h.owner i hi]
  pub := fun i hi => h'.pub i (h.pub i hi)
  written := Nat.le_trans h.written h'.written
  cap := Nat.le_trans h.cap h'.cap
  trace := h.trace.trans h'.trace
  maxCap := Nat.le_trans h.maxCap h'.maxCap
  pol := by rw [h'.pol, h.pol]

theorem Rely.refl (c : Cid) (w : World α) : Rely c w w where
  ev := .refl w
  maxCap := rfl
  own := fun _ _ _ h => ⟨h, rfl⟩
  fresh := fun i h h' => absurd h' (by omega)
  hold := fun _ h => ⟨h, rfl⟩
  nohold := fun _ h => h
  capOwn := fun _ _ => ⟨rfl, rfl, rfl⟩
  nogrow := fun h => h
  data := rfl

theorem Rely.trans {c : Cid} {w w' w'' : World α} (h : Rely c w w') (h' : Rely c w' w'') : Rely c w w'' where
  ev := h.ev.trans h'.ev
  maxCap := by rw [h'.maxCap, h.maxCap]
  own := fun i hi ho hv => by
    have h1 := h.own i hi ho hv
    have h2 := h'.own i (Nat.lt_of_lt_of_le hi h.ev.len) (by rw [h.ev.owner i hi, ho]) h1.1
    exact ⟨h2.1, by rw [h2.2, h1.2]⟩
  fresh := fun i hi hi' => by
    by_cases hlt : i < w'.spec.len
    · rw [h'.ev.owner i hlt]; exact h.fresh i hi hlt
    · exact h'.fresh i (by omega) hi'
  hold := fun i hi => by
    have h1 := h.hold i hi
    have h2 := h'.hold i h1.1
    exact ⟨h2.1, by rw [h2.2, h1.2]⟩
  nohold := fun i hi => h.nohold i (h'.nohold i hi)
  capOwn := fun hc ho => by
    have h1 := h.capOwn hc ho
    have h2 := h'.capOwn (by rw [h1.1]; exact Nat.lt_of_lt_of_le hc h.ev.len)
      (by rw [h1.1, h.ev.owner _ hc, ho])
    exact ⟨by rw [h2.1, h1.1], by rw [h2.2.1, h1.2.1], by rw [h2.2.2, h1.2.2]⟩
  nogrow := fun hg => h.nogrow (h'.nogrow hg)
  data := by rw [h'.data, h.data]

/-- Precondition under which call `c` may perform an action. `raw` permits reading without holding the
element (user code dereferencing a pointer). -/
def Pre (raw : Bool) (c : Cid) (w : World α) : Act α → Prop
  | .writtenFetchMax n _ => ∀ i, i < n → (w.spec.val i).isSome
  | .growAlloc n => w.mem.cap < n ∧ n ≤ w.mem.maxCap ∧ w.mem.cap < w.spec.len ∧
      w.spec.owner w.mem.cap = c ∧ w.grower = none
  | .growPublish _ => w.grower = some c
  | .stLoad i _ => i < w.mem.cap ∧ w.holder i ≠ some c
  | .stCas i e n _ _ => i < w.mem.cap ∧ e = .SOME ∧ n = .RESERVED
  | .stStore i s _ => s = .SOME ∧ i < w.mem.cap ∧ (w.holder i = some c ∨
      (i < w.spec.len ∧ w.spec.owner i = c ∧ w.spec.val i = none ∧ (w.mem.val i).isSome))
  | .valRead i => (w.spec.val i).isSome ∧ (raw = true ∨ w.holder i = some c)
  | .valWrite i _ => i < w.mem.cap ∧ (w.holder i = some c ∨
      (i < w.spec.len ∧ w.spec.owner i = c ∧ w.spec.val i = none ∧ w.mem.val i = none ∧
        ∀ j, j < w.spec.len → w.spec.owner j = c → w.spec.val j = none → j < w.mem.cap))
  | .valSwap i j => i ≠ j ∧ w.holder i = some c ∧ w.holder j = some c
  | _ => True

namespace Inv

variable {σ₀ : SpecSt α} {w : World α}

theorem pub_of_holder (h : Inv σ₀ w) {i : Nat} (hh : (w.holder i).isSome) : (w.spec.val i).isSome := by
  have h1 := (h.lock i).2 hh
  have h2 := h.st_none i
  rcases hv : w.spec.val i with _ | v
  · rw [h2.2 hv] at h1; cases h1
  · rfl

theorem cap_of_holder (h : Inv σ₀ w) {i : Nat} (hh : (w.holder i).isSome) : i < w.mem.cap :=
  h.pub_cap i (h.pub_of_holder hh)

theorem holder_none (h : Inv σ₀ w) {i : Nat} (hh : w.spec.val i = none) : w.holder i = none := by
  rcases hv : w.holder i with _ | d
  · rfl
  · have := h.pub_of_holder (i := i) (by simp [hv])
    simp [hh] at this

theorem written_le (h : Inv σ₀ w) : w.mem.written ≤ w.mem.cap := by
  rcases Nat.lt_or_ge w.mem.cap w.mem.written with hlt | hge
  · have := h.pub_cap _ (h.written _ hlt); omega
  · exact hge

theorem written_le_len (h : Inv σ₀ w) : w.mem.written ≤ w.spec.len := by
  rcases Nat.lt_or_ge w.spec.len w.mem.written with hlt | hge
  · have := h.pub_len _ (h.written _ hlt); omega
  · exact hge

end Inv

theorem dataOf_append (c : Cid) (t s : List (Ev α)) : dataOf c (t ++ s) = dataOf c t ++ dataOf c s := by
  simp [dataOf, List.filter_append]

@[simp] theorem dataOf_nil (c : Cid) : dataOf c ([] : List (Ev α)) = [] := rfl

/-- Appending events without effect on the abstract state. -/
theorem Replay.append {σ₀ σ : SpecSt α} {t : List (Ev α)} (h : Replay σ₀ t σ) (e : Ev α) (ok : specOk σ e) :
    Replay σ₀ (t ++ [e]) (specNext σ e) := .snoc h ok

/-! ## Worlds after each action -/

namespace World

def afterReserve (c : Cid) (n : Nat) (w : World α) : World α :=
  { w with
    mem := { w.mem with reserved := w.mem.reserved + n }
    trace := w.trace ++ [.reserve c w.mem.reserved n]
    spec := specNext w.spec (.reserve c w.mem.reserved n) }

def afterWritten (n : Nat) (w : World α) : World α :=
  { w with mem := { w.mem with written := max w.mem.written n } }

def afterAlloc (c : Cid) (n : Nat) (w : World α) : World α :=
  { w with
    mem := { w.mem with
      growing := true
      alloc := w.mem.pol.grow w.mem.cap n
      st := fun i => if w.mem.alloc ≤ i ∧ i < w.mem.pol.grow w.mem.cap n then .NONE else w.mem.st i
      val := fun i => if w.mem.alloc ≤ i ∧ i < w.mem.pol.grow w.mem.cap n then none else w.mem.val i }
    grower := some c }

def afterPublishCap (w : World α) : World α :=
  { w with mem := { w.mem with growing := false, cap := w.mem.alloc }, grower := none }

def afterLook (e : Ev α) (w : World α) : World α := { w with trace := w.trace ++ [e], spec := specNext w.spec e }

def afterLock (c : Cid) (i : Nat) (w : World α) : World α :=
  { w with mem := { w.mem with st := upd w.mem.st i .RESERVED }, holder := upd w.holder i (some c) }

def afterUnlock (i : Nat) (w : World α) : World α :=
  { w with mem := { w.mem with st := upd w.mem.st i .SOME }, holder := upd w.holder i none }

def afterPublish (c : Cid) (i : Nat) (v : α) (w : World α) : World α :=
  { w with
    mem := { w.mem with st := upd w.mem.st i .SOME }
    holder := upd w.holder i none
    trace := w.trace ++ [.publish c i v]
    spec := specNext w.spec (.publish c i v) }

def afterInit (i : Nat) (v : α) (w : World α) : World α :=
  { w with mem := { w.mem with val := upd w.mem.val i (some v) } }

def afterWrite (c : Cid) (i : Nat) (old v : α) (w : World α) : World α :=
  { w with
    mem := { w.mem with val := upd w.mem.val i (some v) }
    trace := w.trace ++ [.write c i old v]
    spec := specNext w.spec (.write c i old v) }

def afterSwap (c : Cid) (i j : Nat) (vi vj : α) (w : World α) : World α :=
  { w with
    mem := { w.mem with val := upd (upd w.mem.val i (some vj)) j (some vi) }
    trace := w.trace ++ [.swap c i j]
    spec := specNext w.spec (.swap c i j) }

end World

theorem World.ext_nil (w : World α) :
    ({ mem := w.mem, trace := w.trace ++ [], spec := w.spec, holder := w.holder, grower := w.grower } : World α)
      = w := by simp

section execEqs
variable (c : Cid) (w : World α)

theorem exec_resFetchAdd (n : Nat) (o : MOrd) :
    w.exec c (.resFetchAdd n o) = some (w.afterReserve c n, w.mem.reserved) := rfl

theorem exec_resLoad (o : MOrd) : w.exec c (.resLoad o) = some (w, w.mem.reserved) := by
  simp [World.exec, Act.exec, Act.events, Act.holderNext, Act.growerNext]
  try rfl

theorem exec_writtenLoad (o : MOrd) : w.exec c (.writtenLoad o) = some (w, w.mem.written) := by
  simp [World.exec, Act.exec, Act.events, Act.holderNext, Act.growerNext]
  try rfl

theorem exec_capLoad (o : MOrd) : w.exec c (.capLoad o) = some (w, w.mem.cap) := by
  simp [World.exec, Act.exec, Act.events, Act.holderNext, Act.growerNext]
  try rfl

theorem exec_maxCapLoad : w.exec c .maxCapLoad = some (w, w.mem.maxCap) := by
  simp [World.exec, Act.exec, Act.events, Act.holderNext, Act.growerNext]
  try rfl

theorem exec_writtenFetchMax (n : Nat) (o : MOrd) :
    w.exec c (.writtenFetchMax n o) = some (w.afterWritten n, ()) := by
  simp [World.exec, Act.exec, Act.events, Act.holderNext, Act.growerNext, World.afterWritten]
  try rfl

theorem exec_growAlloc (n : Nat) (h : w.mem.growing = false) :
    w.exec c (.growAlloc n) = some (w.afterAlloc c n, ()) := by
  simp [World.exec, Act.exec, Act.events, Act.holderNext, Act.growerNext, World.afterAlloc, h]
  try rfl

theorem exec_growPublish (o : MOrd) (h : w.mem.growing = true) :
    w.exec c (.growPublish o) = some (w.afterPublishCap, ()) := by
  simp [World.exec, Act.exec, Act.events, Act.holderNext, Act.growerNext, World.afterPublishCap, h]
  try rfl

theorem exec_stLoad_some (i : Nat) (o : MOrd) (h : i < w.mem.cap) (hs : w.mem.st i = .SOME) :
    w.exec c (.stLoad i o) = some (w.afterLook (.seen c i), .SOME) := by
  simp [World.exec, Act.exec, Act.events, Act.holderNext, Act.growerNext, World.afterLook, h, hs]
  try rfl

theorem exec_stLoad_none (i : Nat) (o : MOrd) (h : i < w.mem.cap) (hs : w.mem.st i = .NONE) :
    w.exec c (.stLoad i o) = some (w.afterLook (.hole c i), .NONE) := by
  simp [World.exec, Act.exec, Act.events, Act.holderNext, Act.growerNext, World.afterLook, h, hs]
  try rfl

theorem exec_stLoad_busy (i : Nat) (o : MOrd) (d : Cid) (h : i < w.mem.cap) (hs : w.mem.st i = .RESERVED)
    (hh : w.holder i = some d) :
    w.exec c (.stLoad i o) = some (w.afterLook (.busy c i d), .RESERVED) := by
  simp [World.exec, Act.exec, Act.events, Act.holderNext, Act.growerNext, World.afterLook, h, hs, hh]
  try rfl

theorem exec_stCas_ok (i : Nat) (o o' : MOrd) (h : i < w.mem.cap) (hs : w.mem.st i = .SOME) :
    w.exec c (.stCas i .SOME .RESERVED o o') = some (w.afterLock c i, none) := by
  simp [World.exec, Act.exec, Act.events, Act.holderNext, Act.growerNext, World.afterLock, h, hs]
  try rfl

theorem exec_stCas_fail (i : Nat) (o o' : MOrd) (h : i < w.mem.cap) (hs : w.mem.st i ≠ .SOME) :
    w.exec c (.stCas i .SOME .RESERVED o o') = some (w, some (w.mem.st i)) := by
  simp [World.exec, Act.exec, Act.events, Act.holderNext, Act.growerNext, h, hs]
  try rfl

theorem exec_stStore_unlock (i : Nat) (o : MOrd) (h : i < w.mem.cap) (hs : w.mem.st i ≠ .NONE) :
    w.exec c (.stStore i .SOME o) = some (w.afterUnlock i, ()) := by
  simp [World.exec, Act.exec, Act.events, Act.holderNext, Act.growerNext, World.afterUnlock, h, hs]
  try rfl

theorem exec_stStore_publish (i : Nat) (o : MOrd) (v : α) (h : i < w.mem.cap) (hs : w.mem.st i = .NONE)
    (hv : w.mem.val i = some v) :
    w.exec c (.stStore i .SOME o) = some (w.afterPublish c i v, ()) := by
  simp [World.exec, Act.exec, Act.events, Act.holderNext, Act.growerNext, World.afterPublish, h, hs, hv]
  try rfl

theorem exec_valRead (i : Nat) (v : α) (h : i < w.mem.cap) (hv : w.mem.val i = some v) :
    w.exec c (.valRead i) = some (w.afterLook (.read c i v), v) := by
  simp [World.exec, Act.exec, Act.events, Act.holderNext, Act.growerNext, World.afterLook, h, hv]
  try rfl

theorem exec_valWrite_init (i : Nat) (v : α) (h : i < w.mem.cap) (hs : w.mem.st i ≠ .RESERVED) :
    w.exec c (.valWrite i v) = some (w.afterInit i v, ()) := by
  simp [World.exec, Act.exec, Act.events, Act.holderNext, Act.growerNext, World.afterInit, h, hs]
  try rfl

theorem exec_valWrite_write (i : Nat) (old v : α) (h : i < w.mem.cap) (hs : w.mem.st i = .RESERVED)
    (hv : w.mem.val i = some old) :
    w.exec c (.valWrite i v) = some (w.afterWrite c i old v, ()) := by
  simp [World.exec, Act.exec, Act.events, Act.holderNext, Act.growerNext, World.afterWrite, h, hs, hv]
  try rfl

theorem exec_valSwap (i j : Nat) (vi vj : α) (h : i < w.mem.cap) (h' : j < w.mem.cap)
    (hv : w.mem.val i = some vi) (hu : w.mem.val j = some vj) :
    w.exec c (.valSwap i j) = some (w.afterSwap c i j vi vj, ()) := by
  simp [World.exec, Act.exec, Act.events, Act.holderNext, Act.growerNext, World.afterSwap, h, h', hv, hu]
  try rfl

end execEqs

/-! ## Each action preserves the invariant and satisfies the rely of every other call -/

section guar
variable {σ₀ : SpecSt α} {w : World α} {c : Cid}

theorem isData_cid_other {c c' : Cid} (h : c' ≠ c) (e : Ev α) (he : e.cid = c) : dataOf c' [e] = [] := by
  have : ¬ c = c' := fun hh => h hh.symm
  simp [dataOf, he, this]

theorem guar_reserve (h : Inv σ₀ w) (n : Nat) :
    Inv σ₀ (w.afterReserve c n) ∧ ∀ c', c' ≠ c → Rely c' w (w.afterReserve c n) := by
  have hl := h.len_eq
  constructor
  · constructor
    · exact h.replay.append _ (by simp [specOk, hl])
    · simp [World.afterReserve, specNext, hl]
    · intro i hi; have := h.pub_len i hi; simp only [World.afterReserve, specNext] at *; omega
    · exact h.pub_cap
    · exact h.st_none
    · exact h.val_eq
    · exact h.lock
    · exact h.written
    · exact h.uninit
    · intro i hi; exact h.unres i (by simp only [World.afterReserve, specNext] at hi; omega)
    · exact h.good
    · exact h.cap_alloc
    · exact h.growing
    · exact h.grow_none
    · intro d hd
      have := h.grow_some d hd
      simp only [World.afterReserve, specNext]
      refine ⟨by omega, ?_, this.2.2⟩
      rw [if_neg (by omega)]; exact this.2.1
  · intro c' hc
    constructor
    · constructor
      · simp [World.afterReserve, specNext]
      · intro i hi; simp only [World.afterReserve, specNext]; rw [if_neg (by omega)]
      · intro i hi; exact hi
      · exact Nat.le_refl _
      · exact Nat.le_refl _
      · exact List.prefix_append _ _
      · exact Nat.le_refl _
      · rfl
    · rfl
    · intro i _ _ hv; exact ⟨hv, rfl⟩
    · intro i hi hi'
      simp only [World.afterReserve, specNext] at *
      rw [if_pos (by omega)]; exact fun hh => hc hh.symm
    · intro i hi; exact ⟨hi, rfl⟩
    · intro i hi; exact hi
    · intro _ _; exact ⟨rfl, rfl, rfl⟩
    · exact fun hh => hh
    · simp only [World.afterReserve, dataOf_append, isData_cid_other hc (Ev.reserve c w.mem.reserved n) rfl, List.append_nil]

/-- Actions which only look: the acting call itself may also rely on them. -/
theorem guar_look (h : Inv σ₀ w) (e : Ev α) (hs : specNext w.spec e = w.spec) (ok : specOk w.spec e)
    (hd : e.isData = false ∨ e.cid = c) :
    Inv σ₀ (w.afterLook e) ∧ ∀ c', (e.isData = true → c' ≠ c) → Rely c' w (w.afterLook e) := by
  have heq : (w.afterLook e).spec = w.spec := hs
  constructor
  · constructor
    · exact h.replay.append _ ok
    all_goals (try rw [heq])
    · exact h.len_eq
    · exact h.pub_len
    · exact h.pub_cap
    · exact h.st_none
    · exact h.val_eq
    · exact h.lock
    · exact h.written
    · exact h.uninit
    · exact h.unres
    · exact h.good
    · exact h.cap_alloc
    · exact h.growing
    · exact h.grow_none
    · exact h.grow_some
  · intro c' hc
    constructor
    · constructor
      all_goals (try rw [heq])
      · exact Nat.le_refl _
      · intro i hi; rfl
      · intro i hi; exact hi
      · exact Nat.le_refl _
      · exact Nat.le_refl _
      · exact List.prefix_append _ _
      · exact Nat.le_refl _
      · rfl
    all_goals (try rw [heq])
    · rfl
    · intro i _ _ hv; exact ⟨hv, rfl⟩
    · intro i hi hi'; omega
    · intro i hi; exact ⟨hi, rfl⟩
    · intro i hi; exact hi
    · intro _ _; exact ⟨rfl, rfl, rfl⟩
    · exact fun hh => hh
    · simp only [World.afterLook, dataOf_append]
      by_cases hdat : e.isData = true
      · rcases hd with hd | hd
        · simp [hd] at hdat
        · rw [isData_cid_other (hc hdat) _ hd, List.append_nil]
      · simp [dataOf, hdat]

theorem guar_written (h : Inv σ₀ w) (n : Nat) (hp : ∀ i, i < n → (w.spec.val i).isSome) :
    Inv σ₀ (w.afterWritten n) ∧ ∀ c', Rely c' w (w.afterWritten n) := by
  constructor
  · refine ⟨h.replay, h.len_eq, h.pub_len, h.pub_cap, h.st_none, h.val_eq, h.lock, ?_, h.uninit, h.unres,
      h.good, h.cap_alloc, h.growing, h.grow_none, h.grow_some⟩
    intro i hi
    simp only [World.afterWritten] at *
    rcases Nat.lt_or_ge i n with hlt | hge
    · exact hp i hlt
    · exact h.written i (by omega)
  · intro c'
    refine ⟨⟨Nat.le_refl _, fun _ _ => rfl, fun _ hi => hi, ?_, Nat.le_refl _, List.prefix_rfl,
      Nat.le_refl _, rfl⟩, rfl, fun _ _ _ hv => ⟨hv, rfl⟩, ?_, fun _ hi => ⟨hi, rfl⟩, fun _ hi => hi,
      fun _ _ => ⟨rfl, rfl, rfl⟩, fun hh => hh, rfl⟩
    · simp only [World.afterWritten]; omega
    · intro i hi hi'; simp only [World.afterWritten] at hi'; omega

theorem guar_alloc {raw : Bool} (h : Inv σ₀ w) (n : Nat) (hp : Pre raw c w (.growAlloc n)) :
    Inv σ₀ (w.afterAlloc c n) ∧ ∀ c', c' ≠ c → Rely c' w (w.afterAlloc c n) := by
  obtain ⟨h1, h2, h3, h4, h5⟩ := hp
  have hg := w.mem.pol.grow_ok h.good h1 h2
  have ha := h.grow_none h5
  have key : ∀ i, w.mem.cap ≤ i → w.spec.val i = none := by
    intro i hi
    rcases hv : w.spec.val i with _ | v
    · rfl
    · have := h.pub_cap i (by simp [hv]); omega
  constructor
  · constructor
    · exact h.replay
    · exact h.len_eq
    · exact h.pub_len
    · exact h.pub_cap
    · intro i
      simp only [World.afterAlloc]
      split
      · rename_i hi; simp [key i (by omega)]
      · exact h.st_none i
    · intro i hi
      simp only [World.afterAlloc] at *
      rw [if_neg]
      · exact h.val_eq i hi
      · have := h.pub_cap i hi; omega
    · intro i
      simp only [World.afterAlloc]
      split
      · rename_i hi
        have := h.holder_none (key i (by omega))
        simp [this]
      · exact h.lock i
    · exact h.written
    · intro i hi
      simp only [World.afterAlloc] at *
      split
      · rfl
      · exact h.uninit i hi
    · intro i hi
      simp only [World.afterAlloc] at *
      split
      · rfl
      · exact h.unres i hi
    · exact h.good
    · simp only [World.afterAlloc]; omega
    · rfl
    · intro hh; simp [World.afterAlloc] at hh
    · intro d hd
      simp only [World.afterAlloc, Option.some.injEq] at *
      exact ⟨h3, by rw [h4]; exact hd, hg.2.2⟩
  · intro c' hc
    refine ⟨⟨Nat.le_refl _, fun _ _ => rfl, fun _ hi => hi, Nat.le_refl _, Nat.le_refl _, List.prefix_rfl,
      Nat.le_refl _, rfl⟩, rfl, ?_, ?_, fun _ hi => ⟨hi, rfl⟩, fun _ hi => hi,
      ?_, ?_, rfl⟩
    · intro i hi ho hv
      refine ⟨hv, ?_⟩
      simp only [World.afterAlloc]
      split
      · rename_i hi'; exact (h.uninit i (by omega)).symm
      · rfl
    · intro i hi hi'; simp only [World.afterAlloc] at hi'; omega
    · intro _ ho; exact absurd (ho.symm.trans h4) hc
    · intro hh; simp only [World.afterAlloc, Option.some.injEq] at hh; exact absurd hh.symm hc

theorem guar_publishCap (h : Inv σ₀ w) (hp : w.grower = some c) :
    Inv σ₀ w.afterPublishCap ∧ ∀ c', c' ≠ c → Rely c' w w.afterPublishCap := by
  have hg := h.grow_some c hp
  have hca := h.cap_alloc
  constructor
  · refine ⟨h.replay, h.len_eq, h.pub_len, ?_, h.st_none, h.val_eq, h.lock, h.written, ?_, h.unres, ?_, ?_,
      rfl, fun _ => rfl, ?_⟩
    · intro i hi; have := h.pub_cap i hi; simp only [World.afterPublishCap]; omega
    · intro i hi; simp only [World.afterPublishCap] at *; exact h.uninit i (by omega)
    · exact hg.2.2
    · exact Nat.le_refl _
    · intro d hd; simp [World.afterPublishCap] at hd
  · intro c' hc
    refine ⟨⟨Nat.le_refl _, fun _ _ => rfl, fun _ hi => hi, Nat.le_refl _, hca, List.prefix_rfl,
      Nat.le_refl _, rfl⟩, rfl, fun _ _ _ hv => ⟨hv, rfl⟩, ?_, fun _ hi => ⟨hi, rfl⟩, fun _ hi => hi,
      ?_, ?_, rfl⟩
    · intro i hi hi'; simp only [World.afterPublishCap] at hi'; omega
    · intro _ ho; exact absurd (ho.symm.trans hg.2.1) hc
    · intro hh; simp [World.afterPublishCap] at hh

theorem guar_lock (h : Inv σ₀ w) (i : Nat) (hs : w.mem.st i = .SOME) :
    Inv σ₀ (w.afterLock c i) ∧ ∀ c', c' ≠ c → Rely c' w (w.afterLock c i) := by
  have hn : w.holder i = none := by
    rcases hh : w.holder i with _ | d
    · rfl
    · have := (h.lock i).2 (by simp [hh]); rw [hs] at this; cases this
  have hv : w.spec.val i ≠ none := by
    intro hh; have := (h.st_none i).2 hh; rw [hs] at this; cases this
  constructor
  · refine ⟨h.replay, h.len_eq, h.pub_len, h.pub_cap, ?_, h.val_eq, ?_, h.written, h.uninit, h.unres, h.good,
      h.cap_alloc, h.growing, h.grow_none, h.grow_some⟩
    · intro j
      simp only [World.afterLock, upd_apply]
      split
      · rename_i hj; subst hj; simp [hv]
      · exact h.st_none j
    · intro j
      simp only [World.afterLock, upd_apply]
      split
      · simp
      · exact h.lock j
  · intro c' hc
    refine ⟨⟨Nat.le_refl _, fun _ _ => rfl, fun _ hi => hi, Nat.le_refl _, Nat.le_refl _, List.prefix_rfl,
      Nat.le_refl _, rfl⟩, rfl, fun _ _ _ hv => ⟨hv, rfl⟩, ?_, ?_, ?_,
      fun _ _ => ⟨rfl, rfl, rfl⟩, fun hh => hh, rfl⟩
    · intro i hi hi'; simp only [World.afterLock] at hi'; omega
    · intro j hj
      refine ⟨?_, rfl⟩
      simp only [World.afterLock, upd_apply]
      split
      · rename_i hji; subst hji; rw [hn] at hj; cases hj
      · exact hj
    · intro j hj
      simp only [World.afterLock, upd_apply] at hj
      split at hj
      · simp only [Option.some.injEq] at hj; exact absurd hj.symm hc
      · exact hj

theorem guar_unlock (h : Inv σ₀ w) (i : Nat) (hh : w.holder i = some c) :
    Inv σ₀ (w.afterUnlock i) ∧ ∀ c', c' ≠ c → Rely c' w (w.afterUnlock i) := by
  have hp := h.pub_of_holder (i := i) (by simp [hh])
  constructor
  · refine ⟨h.replay, h.len_eq, h.pub_len, h.pub_cap, ?_, h.val_eq, ?_, h.written, h.uninit, h.unres, h.good,
      h.cap_alloc, h.growing, h.grow_none, h.grow_some⟩
    · intro j
      simp only [World.afterUnlock, upd_apply]
      split
      · rename_i hj; subst hj
        obtain ⟨v, hv⟩ := Option.isSome_iff_exists.1 hp
        simp [hv]
      · exact h.st_none j
    · intro j
      simp only [World.afterUnlock, upd_apply]
      split
      · simp
      · exact h.lock j
  · intro c' hc
    refine ⟨⟨Nat.le_refl _, fun _ _ => rfl, fun _ hi => hi, Nat.le_refl _, Nat.le_refl _, List.prefix_rfl,
      Nat.le_refl _, rfl⟩, rfl, fun _ _ _ hv => ⟨hv, rfl⟩, ?_, ?_, ?_,
      fun _ _ => ⟨rfl, rfl, rfl⟩, fun hh => hh, rfl⟩
    · intro i hi hi'; simp only [World.afterUnlock] at hi'; omega
    · intro j hj
      refine ⟨?_, rfl⟩
      simp only [World.afterUnlock, upd_apply]
      split
      · rename_i hji; subst hji; rw [hh] at hj; simp only [Option.some.injEq] at hj; exact absurd hj.symm hc
      · exact hj
    · intro j hj
      simp only [World.afterUnlock, upd_apply] at hj
      split at hj
      · cases hj
      · exact hj

theorem guar_publish (h : Inv σ₀ w) (i : Nat) (v : α) (hc : i < w.mem.cap) (hl : i < w.spec.len)
    (ho : w.spec.owner i = c) (hs : w.spec.val i = none) (hv : w.mem.val i = some v) :
    Inv σ₀ (w.afterPublish c i v) ∧ ∀ c', c' ≠ c → Rely c' w (w.afterPublish c i v) := by
  have hn := h.holder_none hs
  constructor
  · refine ⟨h.replay.append _ ⟨hl, ho, hs⟩, h.len_eq, ?_, ?_, ?_, ?_, ?_, ?_, h.uninit, h.unres, h.good,
      h.cap_alloc, h.growing, h.grow_none, h.grow_some⟩
    · intro j hj
      simp only [World.afterPublish, specNext, upd_apply] at *
      split at hj
      · rename_i hji; subst hji; exact hl
      · exact h.pub_len j hj
    · intro j hj
      simp only [World.afterPublish, specNext, upd_apply] at *
      split at hj
      · rename_i hji; subst hji; exact hc
      · exact h.pub_cap j hj
    · intro j
      simp only [World.afterPublish, specNext, upd_apply]
      split
      · simp
      · exact h.st_none j
    · intro j hj
      simp only [World.afterPublish, specNext, upd_apply] at *
      split at hj
      · rename_i hji; subst hji; simp [hv]
      · rename_i hji; rw [if_neg hji]; exact h.val_eq j hj
    · intro j
      simp only [World.afterPublish, upd_apply]
      split
      · simp
      · exact h.lock j
    · intro j hj
      have := h.written j hj
      simp only [World.afterPublish, specNext, upd_apply]
      split
      · simp
      · exact this
  · intro c' hcc
    have hne : ∀ j, w.spec.owner j = c' → j ≠ i := by
      intro j hj hji; subst hji; exact hcc (hj.symm.trans ho)
    refine ⟨⟨Nat.le_refl _, fun _ _ => rfl, ?_, Nat.le_refl _, Nat.le_refl _, List.prefix_append _ _,
      Nat.le_refl _, rfl⟩, rfl, ?_, ?_, ?_, ?_, fun _ _ => ⟨rfl, rfl, rfl⟩, fun hh => hh, ?_⟩
    · intro j hj
      simp only [World.afterPublish, specNext, upd_apply]
      split
      · simp
      · exact hj
    · intro j hj hoj hvj
      simp only [World.afterPublish, specNext, upd_apply]
      rw [if_neg (hne j hoj)]
      exact ⟨hvj, trivial⟩
    · intro j hj hj'; simp only [World.afterPublish, specNext] at hj'; omega
    · intro j hj
      have hji : j ≠ i := by intro hji; subst hji; rw [hn] at hj; cases hj
      simp only [World.afterPublish, specNext, upd_apply]
      rw [if_neg hji, if_neg hji]
      exact ⟨hj, rfl⟩
    · intro j hj
      simp only [World.afterPublish, upd_apply] at hj
      split at hj
      · cases hj
      · exact hj
    · simp only [World.afterPublish, dataOf_append, isData_cid_other hcc (Ev.publish c i v) rfl, List.append_nil]

theorem guar_init (h : Inv σ₀ w) (i : Nat) (v : α) (hc : i < w.mem.cap) (hl : i < w.spec.len)
    (ho : w.spec.owner i = c) (hs : w.spec.val i = none) :
    Inv σ₀ (w.afterInit i v) ∧ ∀ c', c' ≠ c → Rely c' w (w.afterInit i v) := by
  constructor
  · refine ⟨h.replay, h.len_eq, h.pub_len, h.pub_cap, h.st_none, ?_, h.lock, h.written, ?_, ?_, h.good,
      h.cap_alloc, h.growing, h.grow_none, h.grow_some⟩
    · intro j hj
      simp only [World.afterInit, upd_apply] at *
      split
      · rename_i hji; subst hji; simp [hs] at hj
      · exact h.val_eq j hj
    · intro j hj
      simp only [World.afterInit, upd_apply] at *
      split
      · omega
      · exact h.uninit j hj
    · intro j hj
      simp only [World.afterInit, upd_apply] at *
      split
      · omega
      · exact h.unres j hj
  · intro c' hcc
    refine ⟨⟨Nat.le_refl _, fun _ _ => rfl, fun _ hi => hi, Nat.le_refl _, Nat.le_refl _, List.prefix_rfl,
      Nat.le_refl _, rfl⟩, rfl, ?_, ?_, fun _ hi => ⟨hi, rfl⟩, fun _ hi => hi,
      fun _ _ => ⟨rfl, rfl, rfl⟩, fun hh => hh, rfl⟩
    · intro j hj hoj hvj
      refine ⟨hvj, ?_⟩
      simp only [World.afterInit, upd_apply]
      rw [if_neg]
      intro hji; subst hji; exact hcc (hoj.symm.trans ho)
    · intro j hj hj'; simp only [World.afterInit] at hj'; omega

theorem guar_write (h : Inv σ₀ w) (i : Nat) (old v : α) (hh : w.holder i = some c)
    (ho : w.spec.val i = some old) :
    Inv σ₀ (w.afterWrite c i old v) ∧ ∀ c', c' ≠ c → Rely c' w (w.afterWrite c i old v) := by
  have hp : (w.spec.val i).isSome := by simp [ho]
  constructor
  · refine ⟨h.replay.append _ ho, h.len_eq, ?_, ?_, ?_, ?_, h.lock, ?_, ?_, ?_, h.good,
      h.cap_alloc, h.growing, h.grow_none, h.grow_some⟩
    · intro j hj
      simp only [World.afterWrite, specNext, upd_apply] at *
      split at hj
      · rename_i hji; subst hji; exact h.pub_len j hp
      · exact h.pub_len j hj
    · intro j hj
      simp only [World.afterWrite, specNext, upd_apply] at *
      split at hj
      · rename_i hji; subst hji; exact h.pub_cap j hp
      · exact h.pub_cap j hj
    · intro j
      simp only [World.afterWrite, specNext, upd_apply]
      split
      · rename_i hji; subst hji
        have := h.st_none j
        simp [this, ho]
      · exact h.st_none j
    · intro j hj
      simp only [World.afterWrite, specNext, upd_apply] at *
      split at hj
      · rename_i hji; subst hji; simp
      · rename_i hji; rw [if_neg hji, if_neg hji]; exact h.val_eq j hj
    · intro j hj
      have := h.written j hj
      simp only [World.afterWrite, specNext, upd_apply]
      split
      · simp
      · exact this
    · intro j hj
      simp only [World.afterWrite, upd_apply] at *
      split
      · rename_i hji; subst hji; have := h.pub_cap j hp; omega
      · exact h.uninit j hj
    · intro j hj
      simp only [World.afterWrite, specNext, upd_apply] at *
      split
      · rename_i hji; subst hji; have := h.pub_len j hp; omega
      · exact h.unres j hj
  · intro c' hcc
    refine ⟨⟨Nat.le_refl _, fun _ _ => rfl, ?_, Nat.le_refl _, Nat.le_refl _, List.prefix_append _ _,
      Nat.le_refl _, rfl⟩, rfl, ?_, ?_, ?_, fun _ hj => hj, fun _ _ => ⟨rfl, rfl, rfl⟩, fun hh => hh, ?_⟩
    · intro j hj
      simp only [World.afterWrite, specNext, upd_apply]
      split
      · simp
      · exact hj
    · intro j hj hoj hvj
      have hji : j ≠ i := by intro hji; subst hji; rw [ho] at hvj; cases hvj
      simp only [World.afterWrite, specNext, upd_apply]
      rw [if_neg hji, if_neg hji]
      exact ⟨hvj, rfl⟩
    · intro j hj hj'; simp only [World.afterWrite, specNext] at hj'; omega
    · intro j hj
      have hji : j ≠ i := by
        intro hji; subst hji; rw [hh] at hj; simp only [Option.some.injEq] at hj; exact hcc hj.symm
      simp only [World.afterWrite, specNext, upd_apply]
      rw [if_neg hji]
      exact ⟨hj, rfl⟩
    · simp only [World.afterWrite, dataOf_append, isData_cid_other hcc (Ev.write c i old v) rfl, List.append_nil]

theorem guar_swap (h : Inv σ₀ w) (i j : Nat) (vi vj : α) (hij : i ≠ j) (hi : w.holder i = some c)
    (hj : w.holder j = some c) (hvi : w.spec.val i = some vi) (hvj : w.spec.val j = some vj) :
    Inv σ₀ (w.afterSwap c i j vi vj) ∧ ∀ c', c' ≠ c → Rely c' w (w.afterSwap c i j vi vj) := by
  have hpi : (w.spec.val i).isSome := by simp [hvi]
  have hpj : (w.spec.val j).isSome := by simp [hvj]
  have hpub : ∀ k, ((w.afterSwap c i j vi vj).spec.val k).isSome = (w.spec.val k).isSome := by
    intro k
    simp only [World.afterSwap, specNext, upd_apply]
    split
    · rename_i hk; subst hk; simp [hpi, hpj]
    · split
      · rename_i hk; subst hk; simp [hpi, hpj]
      · rfl
  have hnone : ∀ k, (w.afterSwap c i j vi vj).spec.val k = none ↔ w.spec.val k = none := by
    intro k
    have := hpub k
    rcases h1 : (w.afterSwap c i j vi vj).spec.val k with _ | x <;> rcases h2 : w.spec.val k with _ | y <;>
      simp_all
  constructor
  · refine ⟨h.replay.append _ ⟨hij, hpi, hpj⟩, h.len_eq, ?_, ?_, ?_, ?_, h.lock, ?_, ?_, ?_, h.good,
      h.cap_alloc, h.growing, h.grow_none, h.grow_some⟩
    · intro k hk; rw [hpub] at hk; exact h.pub_len k hk
    · intro k hk; rw [hpub] at hk; exact h.pub_cap k hk
    · intro k; rw [hnone]; exact h.st_none k
    · intro k hk
      rw [hpub] at hk
      have := h.val_eq k hk
      simp only [World.afterSwap, specNext, upd_apply]
      rw [hvi, hvj]
      split
      · rfl
      · split
        · rfl
        · exact this
    · intro k hk; rw [hpub]; exact h.written k hk
    · intro k hk
      have h1 := h.pub_cap i hpi
      have h2 := h.pub_cap j hpj
      simp only [World.afterSwap, upd_apply] at *
      rw [if_neg (by omega), if_neg (by omega)]
      exact h.uninit k hk
    · intro k hk
      have h1 := h.pub_len i hpi
      have h2 := h.pub_len j hpj
      simp only [World.afterSwap, specNext, upd_apply] at *
      rw [if_neg (by omega), if_neg (by omega)]
      exact h.unres k hk
  · intro c' hcc
    refine ⟨⟨Nat.le_refl _, fun _ _ => rfl, ?_, Nat.le_refl _, Nat.le_refl _, List.prefix_append _ _,
      Nat.le_refl _, rfl⟩, rfl, ?_, ?_, ?_, fun _ hj => hj, fun _ _ => ⟨rfl, rfl, rfl⟩, fun hh => hh, ?_⟩
    · intro k hk; rw [hpub]; exact hk
    · intro k hk hok hvk
      refine ⟨(hnone k).2 hvk, ?_⟩
      have hki : k ≠ i := by intro hki; subst hki; rw [hvi] at hvk; cases hvk
      have hkj : k ≠ j := by intro hkj; subst hkj; rw [hvj] at hvk; cases hvk
      simp only [World.afterSwap, upd_apply]
      rw [if_neg hkj, if_neg hki]
    · intro k hk hk'; simp only [World.afterSwap, specNext] at hk'; omega
    · intro k hk
      have hki : k ≠ i := by
        intro hki; subst hki; rw [hi] at hk; simp only [Option.some.injEq] at hk; exact hcc hk.symm
      have hkj : k ≠ j := by
        intro hki; subst hki; rw [hj] at hk; simp only [Option.some.injEq] at hk; exact hcc hk.symm
      simp only [World.afterSwap, specNext, upd_apply]
      rw [if_neg hkj, if_neg hki]
      exact ⟨hk, rfl⟩
    · simp only [World.afterSwap, dataOf_append, isData_cid_other hcc (Ev.swap c i j) rfl, List.append_nil]

end guar

/-- Actions satisfying their precondition are never undefined behaviour, preserve the invariant, and keep
what every other call relies on. -/
theorem exec_ok {σ₀ : SpecSt α} {w : World α} (h : Inv σ₀ w) {raw : Bool} {c : Cid} {a : Act α}
    (hp : Pre raw c w a) : ∃ w' b, w.exec c a = some (w', b) ∧ Inv σ₀ w' ∧ ∀ c', c' ≠ c → Rely c' w w' := by
  have triv : Inv σ₀ w ∧ ∀ c', c' ≠ c → Rely c' w w := ⟨h, fun c' _ => .refl c' w⟩
  cases a with
  | resFetchAdd n o => exact ⟨_, _, exec_resFetchAdd c w n o, guar_reserve h n⟩
  | resLoad o => exact ⟨_, _, exec_resLoad c w o, triv⟩
  | writtenLoad o => exact ⟨_, _, exec_writtenLoad c w o, triv⟩
  | writtenFetchMax n o =>
    have := guar_written h n hp
    exact ⟨_, _, exec_writtenFetchMax c w n o, this.1, fun c' _ => this.2 c'⟩
  | capLoad o => exact ⟨_, _, exec_capLoad c w o, triv⟩
  | maxCapLoad => exact ⟨_, _, exec_maxCapLoad c w, triv⟩
  | growAlloc n =>
    have hg := h.growing
    rw [hp.2.2.2.2] at hg
    exact ⟨_, _, exec_growAlloc c w n hg, guar_alloc (raw := raw) h n hp⟩
  | growPublish o =>
    have hg := h.growing
    rw [show w.grower = some c from hp] at hg
    exact ⟨_, _, exec_growPublish c w o hg, guar_publishCap h hp⟩
  | stLoad i o =>
    rcases hs : w.mem.st i with _ | _ | _
    · have := guar_look (c := c) h (.hole c i) rfl ((h.st_none i).1 hs) (.inl rfl)
      exact ⟨_, _, exec_stLoad_none c w i o hp.1 hs, this.1, fun c' _ => this.2 c' (by simp [Ev.isData])⟩
    · have hh := (h.lock i).1 hs
      obtain ⟨d, hd⟩ := Option.isSome_iff_exists.1 hh
      have hcd : c ≠ d := by intro hcd; subst hcd; exact hp.2 hd
      have := guar_look (c := c) h (.busy c i d) rfl ⟨h.pub_of_holder hh, hcd⟩ (.inl rfl)
      exact ⟨_, _, exec_stLoad_busy c w i o d hp.1 hs hd, this.1, fun c' _ => this.2 c' (by simp [Ev.isData])⟩
    · have hv : (w.spec.val i).isSome := by
        rcases hv : w.spec.val i with _ | v
        · have := (h.st_none i).2 hv; rw [hs] at this; cases this
        · rfl
      have := guar_look (c := c) h (.seen c i) rfl hv (.inl rfl)
      exact ⟨_, _, exec_stLoad_some c w i o hp.1 hs, this.1, fun c' _ => this.2 c' (by simp [Ev.isData])⟩
  | stCas i e n o o' =>
    obtain ⟨h1, rfl, rfl⟩ := hp
    by_cases hs : w.mem.st i = .SOME
    · exact ⟨_, _, exec_stCas_ok c w i o o' h1 hs, guar_lock h i hs⟩
    · exact ⟨_, _, exec_stCas_fail c w i o o' h1 hs, triv⟩
  | stStore i s o =>
    obtain ⟨rfl, h1, h2⟩ := hp
    rcases h2 with h2 | ⟨hl, ho, hv, hm⟩
    · have hs := (h.lock i).2 (by simp [h2])
      exact ⟨_, _, exec_stStore_unlock c w i o h1 (by simp [hs]), guar_unlock h i h2⟩
    · obtain ⟨v, hm⟩ := Option.isSome_iff_exists.1 hm
      exact ⟨_, _, exec_stStore_publish c w i o v h1 ((h.st_none i).2 hv) hm,
        guar_publish h i v h1 hl ho hv hm⟩
  | valRead i =>
    obtain ⟨v, hv⟩ := Option.isSome_iff_exists.1 hp.1
    have hm := h.val_eq i hp.1
    rw [hv] at hm
    have := guar_look (c := c) h (.read c i v) rfl hv (.inr rfl)
    exact ⟨_, _, exec_valRead c w i v (h.pub_cap i hp.1) hm, this.1, fun c' hc => this.2 c' (fun _ => hc)⟩
  | valWrite i v =>
    obtain ⟨h1, h2⟩ := hp
    rcases h2 with h2 | ⟨hl, ho, hv, -⟩
    · have hs := (h.lock i).2 (by simp [h2])
      have hp := h.pub_of_holder (i := i) (by simp [h2])
      obtain ⟨old, hold⟩ := Option.isSome_iff_exists.1 hp
      have hm := h.val_eq i hp
      rw [hold] at hm
      exact ⟨_, _, exec_valWrite_write c w i old v h1 hs hm, guar_write h i old v h2 hold⟩
    · exact ⟨_, _, exec_valWrite_init c w i v h1 (by rw [(h.st_none i).2 hv]; simp),
        guar_init h i v h1 hl ho hv⟩
  | valSwap i j =>
    obtain ⟨hij, hi, hj⟩ := hp
    have pi := h.pub_of_holder (i := i) (by simp [hi])
    have pj := h.pub_of_holder (i := j) (by simp [hj])
    obtain ⟨v, hv'⟩ := Option.isSome_iff_exists.1 pi
    obtain ⟨u, hu'⟩ := Option.isSome_iff_exists.1 pj
    have hv := h.val_eq i pi
    have hu := h.val_eq j pj
    rw [hv'] at hv; rw [hu'] at hu
    exact ⟨_, _, exec_valSwap c w i j v u (h.pub_cap i pi) (h.pub_cap j pj) hv hu,
      guar_swap h i j v u hij hi hj hv' hu'⟩

end Verif
