import Verif.Proof.NextLemmas
import Verif.Props.Demo

/-!
# Memory safety, growth of the storage, panics: C06, C07, C09, C13, C18, C19, C42
-/

namespace Verif

variable {α β : Type} {m : Mem α} {l : List α} {κ : Cfg α β}

/-! ## C06 -/

/-- **C06.** No position is initialised by two calls: if two calls are about to store the first value of position
`i` (at whatever moments), they are the same call. -/
theorem C06_one_initialiser {n : Nat} {κ : Nat → Cfg α β} (hm : InitMem m l) (h : Exec m l n κ) {s t : Nat}
    (hs : s ≤ n) (ht : t ≤ n) {c1 c2 : Cid} {i : Nat} {v1 v2 : α}
    (h1 : (κ s).Next c1 (.valWrite i v1)) (e1 : (κ s).content i = none)
    (h2 : (κ t).Next c2 (.valWrite i v2)) (e2 : (κ t).content i = none) : c1 = c2 := by
  have key : ∀ {s t : Nat}, s ≤ t → t ≤ n → ∀ {c1 c2 : Cid} {v1 v2 : α},
      (κ s).Next c1 (.valWrite i v1) → (κ s).content i = none →
      (κ t).Next c2 (.valWrite i v2) → (κ t).content i = none → c1 = c2 := by
    intro s t hst ht c1 c2 v1 v2 h1 e1 h2 e2
    have hIs := h.inv hm (by omega : s ≤ n)
    have hIt := h.inv hm ht
    have own : ∀ {t : Nat} {c : Cid} {v : α}, CfgInv (.ofList l) (κ t) → (κ t).Next c (.valWrite i v) →
        (κ t).content i = none → i < (κ t).w.spec.len ∧ (κ t).w.spec.owner i = c := by
      intro t c v hI hn he
      obtain ⟨op, -, ⟨-, hp⟩, -⟩ := hI.pre hn
      rcases hp with hp | hp
      · have := hI.inv.pub_of_holder (i := i) (by simp [hp])
        rw [hI.content_eq] at he
        rw [he] at this
        cases this
      · exact ⟨hp.1, hp.2.1⟩
    have o1 := own hIs h1 e1
    have o2 := own hIt h2 e2
    rw [← o1.2, ← o2.2, (h.evolves hm hst ht).owner i o1.1]
  rcases Nat.le_total s t with hst | hst
  · exact key hst ht h1 e1 h2 e2
  · exact (key hst hs h2 e2 h1 e1).symm

/-- **C06.** The initialising call is the one that received the position: if it ever returns `b`, then `i` is one
of its positions. -/
theorem C06_by_its_owner {n : Nat} {κ : Nat → Cfg α β} (hm : InitMem m l) (h : Exec m l n κ) {t : Nat}
    (ht : t ≤ n) {c : Cid} {i : Nat} {v : α} (h1 : (κ t).Next c (.valWrite i v)) (e1 : (κ t).content i = none) :
    (∃ b k, Received κ n c b k ∧ b ≤ i ∧ i < b + k) ∧
    ∀ op k b, op.size = some k → (κ n).Returned c op (.nat b) → b ≤ i ∧ i < b + k := by
  have hI := h.inv hm ht
  have hN := h.inv hm (Nat.le_refl n)
  obtain ⟨op, -, ⟨-, hp⟩, -⟩ := hI.pre h1
  have hown : i < (κ t).w.spec.len ∧ (κ t).w.spec.owner i = c := by
    rcases hp with hp | hp
    · have := hI.inv.pub_of_holder (i := i) (by simp [hp])
      rw [hI.content_eq] at e1
      rw [e1] at this
      cases this
    · exact ⟨hp.1, hp.2.1⟩
  have hl : l.length ≤ i := by
    rcases Nat.lt_or_ge i l.length with hlt | hge
    · have h0 : ((κ 0).content i).isSome := by
        rw [h.init]
        simp [Cfg.content, Cfg.init, World.init, Mem.content, hm.st, hm.val, hlt]
      have := h.keep_some hm (Nat.zero_le t) ht h0
      rw [e1] at this; cases this
    · exact hge
  have hleg := hI.inv.legal
  rw [hI.inv.spec_eq] at hown
  obtain ⟨b, k, he, hb⟩ := hleg.owner_reserved hown.1 hl
  rw [hown.2] at he
  have he' := (h.evolves hm ht (Nat.le_refl n)).trace.subset he
  refine ⟨⟨b, k, (h.received_iff hm).2 he', hb⟩, fun op k' b' hs hr => ?_⟩
  obtain ⟨b'', vs, hx, -, -, hd⟩ := hN.retGrowth hr hs
  cases hx
  have : (c, b, k) ∈ (dataOf c (κ n).w.trace).filterMap resv := mem_resv.2 (mem_dataOf.2 ⟨he', rfl, rfl⟩)
  rw [hd, List.filterMap_cons, resv_reserve, pubs_resv] at this
  simp only [List.mem_singleton, Prod.mk.injEq] at this
  obtain ⟨-, rfl, rfl⟩ := this
  exact hb

/-- **C06.** Initialising overwrites nothing: the storage of the position is still empty. -/
theorem C06_overwrites_nothing (hm : InitMem m l) (h : Reach m l κ) {c : Cid} {i : Nat} {v : α}
    (hn : κ.Next c (.valWrite i v)) (he : κ.content i = none) : κ.w.mem.val i = none := by
  have hI := h.inv hm
  obtain ⟨op, -, ⟨-, hp⟩, -⟩ := hI.pre hn
  rcases hp with hp | hp
  · have := hI.inv.pub_of_holder (i := i) (by simp [hp])
    rw [hI.content_eq] at he
    rw [he] at this
    cases this
  · exact hp.2.2.2.1

/-- **C06.** Once a position has a value it always has one, and only calls that update elements write to it:
growth never initialises it again. -/
theorem C06_not_again {n : Nat} {κ : Nat → Cfg α β} (hm : InitMem m l) (h : Exec m l n κ) {s t : Nat}
    (hst : s ≤ t) (ht : t ≤ n) {i : Nat} (hv : ((κ s).content i).isSome) :
    ((κ t).content i).isSome ∧ ∀ c op v, (κ t).Next c (.valWrite i v) → (κ t).Called c op → op.MayWrite i := by
  have hv' := h.keep_some hm hst ht hv
  refine ⟨hv', fun c op v hn hc => ?_⟩
  have hI := h.inv hm ht
  rw [hI.content_eq] at hv'
  obtain ⟨op', hrun, ⟨-, hp⟩, w', b, -, hev⟩ := hI.pre hn
  rw [hrun.unique hc]
  have hh : (κ t).w.holder i = some c := by
    rcases hp with hp | hp
    · exact hp
    · rw [hp.2.2.1] at hv'; cases hv'
  have hst : (κ t).w.mem.st i = .RESERVED := (hI.inv.lock i).2 (by simp [hh])
  obtain ⟨old, hold⟩ := Option.isSome_iff_exists.1 hv'
  have hval := hI.inv.val_eq i hv'
  rw [hold] at hval
  have := hev (.write c i old v) (by simp [Act.events, hst, hval])
  rcases this.2 with h8 | h8
  · cases h8
  · cases op' <;> simp only [Op.Allows] at h8 <;> simp only [Op.MayWrite] <;> grind

section examples
open Demo

/-- After the first 17 steps call 1 (`push 7`) is about to initialise position 5. -/
example : let κ := after [10, 20] 2 8 (growth.take 17)
    Possible [10, 20] 2 8 (growth.take 17) ∧ κ.Next 1 (.valWrite 5 7) ∧ κ.content 5 = none ∧
    (κ.content 1).isSome :=
  ⟨by unfold Possible; rfl, ⟨_, _, _, _, _, rfl⟩, rfl, rfl⟩

/-- `element(1).set(77)`: after `get(1)`. -/
def Demo.setOne : List (Choice Nat Nat) := [.call (.get 1)] ++ go 1 6 ++ [.call (.elSet 1 77)] ++ go 2 1

/-- A call about to overwrite an existing value. -/
example : let κ := after [10, 20] 2 8 setOne
    Possible [10, 20] 2 8 setOne ∧ κ.Next 2 (.valWrite 1 77) ∧ κ.content 1 = some 20 :=
  ⟨by unfold Possible; rfl, ⟨_, _, _, _, _, rfl⟩, rfl⟩

end examples

/-! ## C07 -/

/-- **C07.** The capacity never exceeds the maximum capacity. -/
theorem C07_cap_le_max (hm : InitMem m l) (h : Reach m l κ) : κ.w.mem.cap ≤ κ.w.mem.maxCap :=
  κ.w.mem.pol.good_le (h.inv hm).inv.good

/-- **C07.** The capacity never decreases. -/
theorem C07_cap_mono {n : Nat} {κ : Nat → Cfg α β} (hm : InitMem m l) (h : Exec m l n κ) {s t : Nat}
    (hst : s ≤ t) (ht : t ≤ n) : (κ s).w.mem.cap ≤ (κ t).w.mem.cap := (h.evolves hm hst ht).cap

/-- **C07.** At most one call is growing the storage. -/
theorem C07_exclusive (hm : InitMem m l) (h : Reach m l κ) {c1 c2 : Cid} {a1 a2 : Act α}
    (h1 : κ.Next c1 a1) (h2 : κ.Next c2 a2) (g1 : a1.Grows) (g2 : a2.Grows) : c1 = c2 := by
  have hI := h.inv hm
  have own : ∀ {c : Cid} {a : Act α}, κ.Next c a → a.Grows → κ.w.spec.owner κ.w.mem.cap = c := by
    intro c a hn hg
    obtain ⟨op, -, hp, -⟩ := hI.pre hn
    cases a <;> simp only [Act.Grows] at hg
    · exact hp.2.2.2.1
    · exact (hI.inv.grow_some c hp).2.1
  rw [← own h1 g1, ← own h2 g2]

/-- **C07.** A call allocates only while nobody has allocated storage that is not published yet, only what is
within the maximum capacity, and a call publishes only storage that has been allocated. -/
theorem C07_alloc (hm : InitMem m l) (h : Reach m l κ) {c : Cid} :
    (∀ k, κ.Next c (.growAlloc k) → κ.w.mem.alloc = κ.w.mem.cap ∧ κ.w.mem.growing = false ∧
      κ.w.mem.cap < k ∧ k ≤ κ.w.mem.maxCap) ∧
    (∀ o, κ.Next c (.growPublish o) → κ.w.mem.growing = true ∧ κ.w.mem.alloc ≤ κ.w.mem.maxCap ∧
      κ.w.mem.cap ≤ κ.w.mem.alloc) := by
  have hI := h.inv hm
  constructor
  · intro k hn
    obtain ⟨op, -, hp, -⟩ := hI.pre hn
    refine ⟨hI.inv.grow_none hp.2.2.2.2, ?_, hp.1, hp.2.1⟩
    rw [hI.inv.growing, hp.2.2.2.2]; rfl
  · intro o hn
    obtain ⟨op, -, hp, -⟩ := hI.pre hn
    have hp : κ.w.grower = some c := hp
    exact ⟨by rw [hI.inv.growing, hp]; rfl, κ.w.mem.pol.good_le (hI.inv.grow_some c hp).2.2, hI.inv.cap_alloc⟩

/-- **C07.** No call touches a position whose storage is not allocated (and published). -/
theorem C07_allocated (hm : InitMem m l) (h : Reach m l κ) {c : Cid} {a : Act α} {i : Nat}
    (hn : κ.Next c a) (ht : a.Touches i) : i < κ.w.mem.cap ∧ i < κ.w.mem.alloc := by
  have hI := h.inv hm
  obtain ⟨op, -, hp, -⟩ := hI.pre hn
  have : i < κ.w.mem.cap := by
    cases a <;> simp only [Act.Touches] at ht
    · subst ht; exact hp.1
    · subst ht; exact hp.1
    · subst ht; exact hp.2.1
    · subst ht; exact hI.inv.pub_cap _ hp.1
    · subst ht; exact hp.1
    · rcases ht with rfl | rfl
      · exact hI.inv.cap_of_holder (by simp [hp.2.1])
      · exact hI.inv.cap_of_holder (by simp [hp.2.2])
  exact ⟨this, Nat.lt_of_lt_of_le this hI.inv.cap_alloc⟩

/-- **C07.** Successive `capacity()` calls return non-decreasing values, and no `capacity()` result exceeds the
result of a later `maximum_capacity()` call. -/
theorem C07_capacity_calls (hm : InitMem m l) (h : Reach m l κ) {c d : Cid} {a : Nat}
    (h1 : κ.Returned c .capacity (.nat a)) (hb : κ.Before c d) :
    (∀ a', κ.Returned d .capacity (.nat a') → a ≤ a') ∧
    (∀ k, κ.Returned d .maximumCapacity (.nat k) → a ≤ k) := by
  have hI := h.inv hm
  obtain ⟨ct, st, et, fin, hc⟩ := h1
  obtain ⟨dd, hi⟩ := hI.returned hc
  obtain ⟨a0, -, h3, h4, -⟩ := hi.out
  cases h4
  have hev : ∀ {op : Op α β} {ct' st' s'}, κ.calls d = some ⟨op, ct', st', s'⟩ → Evolves fin st' := by
    intro op ct' st' s' hd
    obtain ⟨r1, r2, hr1, hr2, hb⟩ := hb
    rw [hc] at hr1
    rw [hd] at hr2
    simp only [Option.some.injEq] at hr1 hr2
    subst hr1 hr2
    obtain ⟨t, fin', he, hev⟩ := hI.before hc hd hb
    simp only [Status.ended, Option.some.injEq, Prod.mk.injEq] at he
    rw [← he.2] at hev
    exact hev
  constructor
  · rintro a' ⟨ct', st', et', fin', hd⟩
    obtain ⟨dd', hi'⟩ := hI.returned hd
    obtain ⟨a1, h5, -, h6, -⟩ := hi'.out
    cases h6
    exact Nat.le_trans h3 (Nat.le_trans (hev hd).cap h5)
  · rintro k ⟨ct', st', et', fin', hd⟩
    obtain ⟨dd', hi'⟩ := hI.returned hd
    obtain ⟨h6, -⟩ := hi'.out
    cases h6
    exact Nat.le_trans h3 (Nat.le_trans (hev hd).cap
      (Nat.le_trans hi'.ev1.cap (fin'.mem.pol.good_le hi'.invFin.good)))

section examples
open Demo

/-- Call 2 is about to allocate. -/
example : let κ := after [10, 20] 2 8 (growth.take 7)
    Possible [10, 20] 2 8 (growth.take 7) ∧ κ.Next 2 (.growAlloc 5) ∧ κ.w.mem.cap = 2 :=
  ⟨by unfold Possible; rfl, ⟨_, _, _, _, _, rfl⟩, rfl⟩

example : (after [10, 20] 2 8 growth).w.mem.cap = 7 := rfl

end examples

/-! ## C19 -/

/-- **C19.** No execution reaches undefined behaviour. -/
theorem C19_no_ub (hm : InitMem m l) (h : Reach m l κ) : κ.ub = false := (h.inv hm).noUB

/-- **C19.** A call about to read (or swap) the value of a position finds it allocated and initialised. -/
theorem C19_reads_initialised (hm : InitMem m l) (h : Reach m l κ) {c : Cid} {a : Act α} {i : Nat}
    (hn : κ.Next c a) (hr : a.ReadsValue i) :
    i < κ.w.mem.cap ∧ (κ.content i).isSome ∧ (κ.w.mem.val i).isSome := by
  have hI := h.inv hm
  obtain ⟨op, -, hp, -⟩ := hI.pre hn
  have key : (κ.w.spec.val i).isSome := by
    cases a <;> simp only [Act.ReadsValue] at hr
    · subst hr; exact hp.1
    · rcases hr with rfl | rfl
      · exact hI.inv.pub_of_holder (by simp [hp.2.1])
      · exact hI.inv.pub_of_holder (by simp [hp.2.2])
  refine ⟨hI.inv.pub_cap i key, by rw [hI.content_eq]; exact key, ?_⟩
  rw [hI.inv.val_eq i key]; exact key

/-- **C19.** No call touches a position beyond the allocated storage. -/
theorem C19_in_bounds (hm : InitMem m l) (h : Reach m l κ) {c : Cid} {a : Act α} {i : Nat}
    (hn : κ.Next c a) (ht : a.Touches i) : i < κ.w.mem.alloc := (C07_allocated hm h hn ht).2

section examples
open Demo

/-- `get_cloned(1)` about to read. -/
def Demo.readOne : List (Choice Nat Nat) := [.call (.getCloned 1)] ++ go 1 4

example : let κ := after [10, 20] 2 8 readOne
    Possible [10, 20] 2 8 readOne ∧ κ.Next 1 (.valRead 1) ∧ (.valRead 1 : Act Nat).ReadsValue 1 :=
  ⟨by unfold Possible; rfl, ⟨_, _, _, _, _, rfl⟩, rfl⟩

end examples

/-! ## C18 -/

/-- **C18.** Mutual exclusion: at no reachable moment are two different API calls both about to access the value
of the same position. -/
theorem C18_mutual_exclusion (hm : InitMem m l) (h : Reach m l κ) {c1 c2 : Cid} {op1 op2 : Op α β}
    {a1 a2 : Act α} {i : Nat} (hne : c1 ≠ c2)
    (o1 : κ.Called c1 op1) (o2 : κ.Called c2 op2) (api1 : op1.IsApi) (api2 : op2.IsApi)
    (h1 : κ.Next c1 a1) (h2 : κ.Next c2 a2)
    (v1 : a1.ReadsValue i ∨ a1.WritesValue i) : ¬ (a2.ReadsValue i ∨ a2.WritesValue i) := by
  intro v2
  have hI := h.inv hm
  have key : ∀ {c : Cid} {op : Op α β} {a : Act α}, κ.Called c op → op.IsApi → κ.Next c a →
      (a.ReadsValue i ∨ a.WritesValue i) →
      κ.w.holder i = some c ∨ (κ.w.spec.val i = none ∧ κ.w.spec.owner i = c) := by
    intro c op a ho hapi hn hv
    obtain ⟨op', hrun, hp, -⟩ := hI.pre hn
    have := hrun.unique ho
    subst this
    have hraw : op.raw = false := by cases op <;> simp [Op.IsApi, Op.raw] at hapi ⊢
    cases a <;> simp only [Act.ReadsValue, Act.WritesValue, or_self, or_false, false_or] at hv
    · subst hv
      rcases hp.2 with h5 | h5
      · rw [hraw] at h5; cases h5
      · exact .inl h5
    · subst hv
      rcases hp.2 with h5 | h5
      · exact .inl h5
      · exact .inr ⟨h5.2.2.1, h5.2.1⟩
    · rcases hv with rfl | rfl
      · exact .inl hp.2.1
      · exact .inl hp.2.2
  rcases key o1 api1 h1 v1 with g1 | g1 <;> rcases key o2 api2 h2 v2 with g2 | g2
  · rw [g1] at g2; exact hne (Option.some.inj g2)
  · have := hI.inv.pub_of_holder (i := i) (by simp [g1]); rw [g2.1] at this; cases this
  · have := hI.inv.pub_of_holder (i := i) (by simp [g2]); rw [g1.1] at this; cases this
  · exact hne (g1.2.symm.trans g2.2)

/-- **C18.** While a call is about to allocate storage, no call is about to access a position of that storage
(or of any storage that is not allocated yet). -/
theorem C18_no_access_while_allocating (hm : InitMem m l) (h : Reach m l κ) {c1 c2 : Cid} {k : Nat} {a : Act α}
    {i : Nat} (h1 : κ.Next c1 (.growAlloc k)) (h2 : κ.Next c2 a) (ht : a.Touches i) : i < κ.w.mem.alloc ∧
      (κ.w.mem.alloc = κ.w.mem.cap) :=
  ⟨(C07_allocated hm h h2 ht).2, ((C07_alloc hm h).1 k h1).1⟩

section examples
open Demo

/-- Two element operations at the same time: `element(0).set(77)` holds the element, `element(0).cloned()` and
`element(1).replace(5)` run concurrently. -/
def Demo.contend : List (Choice Nat Nat) :=
  [.call .iter] ++ go 1 5 ++
  [.call (.elSet 0 77), .call (.elCloned 0), .call (.elReplace 1 5)] ++ go 2 1 ++ go 3 4 ++ go 4 1

/-- Call 2 is about to write position 0, call 3 waits for it, call 4 is about to read position 1. -/
example : let κ := after [10, 20] 2 8 contend
    Possible [10, 20] 2 8 contend ∧ κ.Next 2 (.valWrite 0 77) ∧
    κ.Next 3 (.stCas 0 .SOME .RESERVED .acquire .relaxed) ∧ κ.Next 4 (.valRead 1) :=
  ⟨by unfold Possible; rfl, ⟨_, _, _, _, _, rfl⟩, ⟨_, _, _, _, _, rfl⟩, ⟨_, _, _, _, _, rfl⟩⟩

end examples

/-! ## C13 -/

/-- **C13.** An element handed out by a call (as reference, in an iterator or in a slice) has a value, from the
moment on at which the call returns. -/
theorem C13_has_value (hm : InitMem m l) (h : Reach m l κ) {c : Cid} {op : Op α β} {x : Ret α β}
    (hr : κ.Returned c op x) {i : Nat} (hi : i ∈ x.elements) : (κ.content i).isSome := by
  have hI := h.inv hm
  obtain ⟨ct, st, et, fin, hc⟩ := hr
  rw [hI.content_eq]
  exact hI.revealed ⟨c, x, op, ct, st, et, fin, hc, hi⟩

/-- **C13.** No call panics because an element has no value. -/
theorem C13_no_missing_value (hm : InitMem m l) (h : Reach m l κ) {c : Cid} {op : Op α β} {k : PanicKind}
    (hp : κ.Panicked c op k) : k ≠ .noValue ∧ k ≠ .setFailed ∧ k ≠ .updateFailed := by
  have hI := h.inv hm
  obtain ⟨ct, st, et, fin, hc⟩ := hp
  obtain ⟨U, d, hi⟩ := hI.panicked hc
  have ho := hi.out
  cases op <;> simp only [Op.Failure, FailGrow] at ho <;> grind

section examples
open Demo

/-- `iter()` handed out elements 0 and 1; they are being accessed concurrently. -/
example : (after [10, 20] 2 8 contend).Returned 1 .iter (.elems [0, 1]) ∧
    1 ∈ (Ret.elems [0, 1] : Ret Nat Nat).elements := ⟨returned_of rfl rfl, by decide⟩

end examples

/-! ## C42 -/

/-- **C42.** A call panics only for a documented reason. -/
theorem C42_documented_panics (hm : InitMem m l) (h : Reach m l κ) {c : Cid} {op : Op α β} {k : PanicKind}
    (hp : κ.Panicked c op k) : op.MayPanic k := by
  have hI := h.inv hm
  obtain ⟨ct, st, et, fin, hc⟩ := hp
  obtain ⟨U, d, hi⟩ := hI.panicked hc
  have ho := hi.out
  cases op
  case push => obtain ⟨i, -, rfl, -⟩ := ho; trivial
  case pushForIdx f =>
    obtain ⟨i, -, -, -, ⟨rfl, -⟩ | ⟨rfl, hf⟩⟩ := ho
    · trivial
    · exact ⟨i, hf⟩
  case extend it =>
    obtain ⟨b, -, -, vs, -, hlt, -, ⟨rfl, -⟩ | ⟨rfl, -, heq⟩ | ⟨rfl, -, rest, heq⟩⟩ := ho
    · trivial
    · show it.items.length < it.hint; rw [heq]; simpa using hlt
    · show none ∈ it.items; rw [heq]; simp
  case extendN items n =>
    obtain ⟨b, -, -, vs, -, hlt, -, ⟨rfl, -⟩ | ⟨rfl, -, heq⟩ | ⟨rfl, -, rest, heq⟩⟩ := ho
    · trivial
    · show items.length < n; rw [heq]; simpa using hlt
    · show none ∈ items; rw [heq]; simp
  case extendForIdx f n =>
    obtain ⟨b, ⟨rfl, -⟩ | ⟨it, hf, hh, -, -, vs, -, hlt, -, ⟨rfl, -⟩ | ⟨rfl, -, heq⟩ | ⟨rfl, -, rest, heq⟩⟩ |
      ⟨-, -, -, -, ⟨rfl, hf⟩ | ⟨rfl, it, hf, hh⟩⟩⟩ := ho
    · trivial
    · trivial
    · exact ⟨b, it, hf, hh, by rw [heq]; simpa using hlt⟩
    · exact ⟨b, .inr ⟨it, hf, by rw [heq]; simp⟩⟩
    · exact ⟨b, .inl hf⟩
    · exact ⟨b, it, hf, hh⟩
  case index i => obtain ⟨-, rfl, -⟩ := ho; trivial
  case splitAt mid => obtain ⟨-, rfl, -⟩ := ho; trivial
  case chunks k => obtain ⟨-, rfl, -, rfl⟩ := ho; rfl
  case map f => obtain ⟨-, rfl, n, -, vs, x, -, -, hx, -⟩ := ho; exact ⟨x, hx⟩
  case filter f => obtain ⟨-, rfl, n, -, vs, x, -, -, hx, -⟩ := ho; exact ⟨x, hx⟩
  case fold f init => obtain ⟨-, rfl, n, -, vs, x, agg, -, -, -, hx⟩ := ho; exact ⟨agg, x, hx⟩
  case visit f init => obtain ⟨-, rfl, n, -, vs, x, agg, -, -, -, hx⟩ := ho; exact ⟨agg, x, hx⟩
  case reduce f => obtain ⟨-, rfl, n, -, v, vs, x, agg, -, -, -, hx⟩ := ho; exact ⟨agg, x, hx⟩
  case eqList veq ts => obtain ⟨-, rfl, n, -, vs, x, t, -, -, -, -, hx⟩ := ho; exact ⟨x, t, hx⟩
  case fillWith f => obtain ⟨-, rfl, n, -, ⟨ps, -, -, -, hx⟩, -⟩ := ho; exact ⟨_, hx⟩
  case elMap f e => obtain ⟨-, rfl, v, hx, -⟩ := ho; exact ⟨v, hx⟩
  case elUpdate f e => obtain ⟨-, rfl, v, hx, -⟩ := ho; exact ⟨v, hx⟩
  case slIndex s i => obtain ⟨-, rfl, -, hx⟩ := ho; exact hx
  case slSplitAt s i => obtain ⟨-, rfl, -, hx⟩ := ho; exact hx
  case slChunks s k => obtain ⟨-, rfl, -, rfl⟩ := ho; rfl
  case slMap s f => obtain ⟨-, rfl, vs, x, -, -, hx, -⟩ := ho; exact ⟨x, hx⟩
  case slFilter s f => obtain ⟨-, rfl, vs, x, -, -, hx, -⟩ := ho; exact ⟨x, hx⟩
  case slFold s f init => obtain ⟨-, rfl, vs, x, agg, -, -, -, hx⟩ := ho; exact ⟨agg, x, hx⟩
  case slVisit s f init => obtain ⟨-, rfl, vs, x, agg, -, -, -, hx⟩ := ho; exact ⟨agg, x, hx⟩
  case slReduce s f => obtain ⟨-, rfl, v, vs, x, agg, -, -, -, hx⟩ := ho; exact ⟨agg, x, hx⟩
  case slEqList s veq ts => obtain ⟨-, rfl, vs, x, t, -, -, -, -, hx⟩ := ho; exact ⟨x, t, hx⟩
  case slFillWith s f => obtain ⟨-, rfl, ps, -, -, -, hx⟩ := ho; exact ⟨_, hx⟩
  all_goals exact ho.elim

section examples
open Demo

/-- `vec[5]` on a vector of two elements. -/
def Demo.oob : List (Choice Nat Nat) := [.call (.index 5)] ++ go 1 5

example : Possible [10, 20] 2 8 oob ∧ (after [10, 20] 2 8 oob).Panicked 1 (.index 5) .outOfBounds :=
  ⟨by unfold Possible; rfl, panicked_of rfl rfl⟩

end examples

/-! ## C09 -/

/-- **C09.** A growth call that is over panicked with the capacity panic exactly if the last position it received
is at or beyond the maximum capacity. (`push_for_idx` evaluates the user's closure first; `hf` says that the
closure did not panic.) -/
theorem C09_panics_iff {n : Nat} {κ : Nat → Cfg α β} (hm : InitMem m l) (h : Exec m l n κ) {c : Cid} {op : Op α β}
    {b k : Nat} {mem : Mem α} (hs : op.size = some k) (hk : 0 < k) (hc : (κ n).Called c op)
    (hrec : Received κ n c b k) (hend : (κ n).AtEnd c mem) (hf : ∀ f, op = .pushForIdx f → f b ≠ none) :
    (κ n).Panicked c op .maxCapacity ↔ mem.maxCap < b + k := by
  have hI := h.inv hm (Nat.le_refl n)
  have hev : Ev.reserve c b k ∈ dataOf c (κ n).w.trace := mem_dataOf.2 ⟨(h.received_iff hm).1 hrec, rfl, rfl⟩
  have hfm := mem_resv.2 hev
  obtain ⟨⟨op', ct, st, s⟩, et, w, hcs, he, rfl⟩ := hend
  have : op' = op := hc.unique ⟨ct, st, s, hcs⟩
  subst this
  cases s with
  | running p => cases he
  | done x et' fin =>
    simp only [Status.ended, Option.some.injEq, Prod.mk.injEq] at he
    obtain ⟨rfl, rfl⟩ := he
    obtain ⟨d, hi⟩ := hI.returned hcs
    obtain ⟨b', vs, -, -, hlen, rfl, -⟩ := hi.growth hs
    rw [hi.data, List.filterMap_cons, resv_reserve, pubs_resv] at hfm
    simp only [List.mem_singleton, Prod.mk.injEq, and_true, true_and] at hfm
    subst hfm
    constructor
    · rintro ⟨ct', st', et', fin', hp⟩
      rw [hcs] at hp; cases hp
    · intro hlt
      have hmem : Ev.publish c (b + (k - 1)) (vs[k - 1]'(by omega)) ∈ fin.trace := by
        have : Ev.publish c (b + (k - 1)) (vs[k - 1]'(by omega)) ∈ dataOf c fin.trace := by
          rw [hi.dataFin]
          exact List.mem_cons_of_mem _ (mem_pubs (by simp))
        exact (mem_dataOf.1 this).1
      have h1 := hi.invFin.legal.publish_pub hmem
      rw [← hi.invFin.spec_eq] at h1
      have h2 := hi.invFin.pub_cap _ h1
      have h3 := fin.mem.pol.good_le hi.invFin.good
      omega
  | panicked kk et' fin =>
    simp only [Status.ended, Option.some.injEq, Prod.mk.injEq] at he
    obtain ⟨rfl, rfl⟩ := he
    obtain ⟨U, d, hi⟩ := hI.panicked hcs
    have hkind : (κ n).Panicked c op' .maxCapacity ↔ kk = .maxCapacity := by
      constructor
      · rintro ⟨ct', st', et', fin', hp⟩
        rw [hcs] at hp
        simp only [Option.some.injEq, Rec.mk.injEq, Status.panicked.injEq] at hp
        exact hp.2.2.2.1
      · rintro rfl; exact ⟨_, _, _, _, hcs⟩
    rw [hkind]
    have hcap := fin.mem.pol.good_le hi.invFin.good
    have ho := hi.out
    rw [hi.data] at hfm
    have hgrow : ∀ (items : List (Option α)) b', FailGrow c st fin items k U d kk b' →
        (kk = .maxCapacity ↔ fin.mem.maxCap < b + k) := by
      rintro items b' ⟨-, -, vs, rfl, -, -, h5⟩
      rw [List.filterMap_cons, resv_reserve, pubs_resv] at hfm
      simp only [List.mem_singleton, Prod.mk.injEq, and_true, true_and] at hfm
      subst hfm
      rcases h5 with ⟨rfl, -, h6⟩ | ⟨rfl, h6, -⟩ | ⟨rfl, h6, -⟩
      · exact ⟨fun _ => h6, fun _ => rfl⟩
      · exact ⟨fun h => (by cases h), fun h => by omega⟩
      · exact ⟨fun h => (by cases h), fun h => by omega⟩
    cases op' <;> simp only [Op.size, Option.some.injEq, reduceCtorEq] at hs <;> subst hs
    case push v =>
      obtain ⟨i, -, rfl, h6, rfl, -⟩ := ho
      simp only [List.filterMap_cons, resv_reserve, List.filterMap_nil, List.mem_singleton, Prod.mk.injEq, and_true,
        true_and] at hfm
      subst hfm
      exact ⟨fun _ => by omega, fun _ => rfl⟩
    case pushForIdx f =>
      obtain ⟨i, -, rfl, -, h7⟩ := ho
      simp only [List.filterMap_cons, resv_reserve, List.filterMap_nil, List.mem_singleton, Prod.mk.injEq, and_true,
        true_and] at hfm
      subst hfm
      rcases h7 with ⟨rfl, h6, -⟩ | ⟨rfl, h6⟩
      · exact ⟨fun _ => by omega, fun _ => rfl⟩
      · exact absurd h6 (hf f rfl)
    case extend it => obtain ⟨b', ho⟩ := ho; exact hgrow _ b' ho
    case extendN items k => obtain ⟨b', ho⟩ := ho; exact hgrow _ b' ho
    case extendForIdx f k =>
      obtain ⟨b', ⟨-, ho⟩ | ⟨it, -, -, ho⟩ | ⟨-, rfl, -, h6, h7⟩⟩ := ho
      · exact hgrow _ b' ho
      · exact hgrow _ b' ho
      · simp only [List.filterMap_cons, resv_reserve, List.filterMap_nil, List.mem_singleton, Prod.mk.injEq,
          and_true, true_and] at hfm
        subst hfm
        have h6 := h6 hk
        rcases h7 with ⟨rfl, -⟩ | ⟨rfl, -⟩
        · exact ⟨fun h => (by cases h), fun h => by omega⟩
        · exact ⟨fun h => (by cases h), fun h => by omega⟩

/-- **C09.** A call that panicked with the capacity panic has received positions, and writes none of them: they
have no value, neither visible nor in the storage, now or later. -/
theorem C09_writes_nothing {n : Nat} {κ : Nat → Cfg α β} (hm : InitMem m l) (h : Exec m l n κ) {c : Cid}
    {op : Op α β} (hp : (κ n).Panicked c op .maxCapacity) :
    ∃ b k, op.size = some k ∧ 0 < k ∧ Received κ n c b k ∧
      ∀ i, b ≤ i → i < b + k → (κ n).content i = none ∧ (κ n).w.mem.val i = none := by
  have hI := h.inv hm (Nat.le_refl n)
  obtain ⟨ct, st, et, fin, hc⟩ := hp
  obtain ⟨U, d, hi⟩ := hI.panicked hc
  have ho := hi.out
  have hole : ∀ i, U i → (κ n).content i = none ∧ (κ n).w.mem.val i = none := fun i hU => by
    rw [hI.content_eq]; exact ⟨(hi.hole i hU).1, (hi.hole i hU).2.2⟩
  have hrec : ∀ {b k}, Ev.reserve c b k ∈ d → Received κ n c b k := by
    intro b k he
    rw [← hi.data] at he
    exact (h.received_iff hm).2 (mem_dataOf.1 he).1
  have hgrow : ∀ (items : List (Option α)) k b, FailGrow c st fin items k U d .maxCapacity b →
      0 < k ∧ Received κ n c b k ∧ ∀ i, b ≤ i → i < b + k → (κ n).content i = none ∧ (κ n).w.mem.val i = none := by
    rintro items k b ⟨-, hk, vs, rfl, -, hU, h5⟩
    rcases h5 with ⟨-, rfl, -⟩ | ⟨h5, -⟩ | ⟨h5, -⟩
    · exact ⟨hk, hrec (by simp), fun i h1 h2 => hole i ((hU i).2 ⟨by simpa using h1, h2⟩)⟩
    · cases h5
    · cases h5
  cases op <;> simp only [Op.Failure] at ho
  case push v =>
    obtain ⟨i, -, -, -, rfl, hU⟩ := ho
    exact ⟨i, 1, rfl, by omega, hrec (by simp), fun j h1 h2 => hole j ((hU j).2 (by omega))⟩
  case pushForIdx f =>
    obtain ⟨i, -, rfl, hU, -⟩ := ho
    exact ⟨i, 1, rfl, by omega, hrec (by simp), fun j h1 h2 => hole j ((hU j).2 (by omega))⟩
  case extend it => obtain ⟨b, ho⟩ := ho; exact ⟨b, _, rfl, hgrow _ _ b ho⟩
  case extendN items k => obtain ⟨b, ho⟩ := ho; exact ⟨b, _, rfl, hgrow _ _ b ho⟩
  case extendForIdx f k =>
    obtain ⟨b, ⟨-, ho⟩ | ⟨it, -, -, ho⟩ | ⟨-, -, -, -, ⟨h7, -⟩ | ⟨h7, -⟩⟩⟩ := ho
    · exact ⟨b, _, rfl, hgrow _ _ b ho⟩
    · exact ⟨b, _, rfl, hgrow _ _ b ho⟩
    · cases h7
    · cases h7
  all_goals simp at ho

/-- **C09.** Growth calls, whether they return, panic or are still running, change no existing element: as long
as only calls that may not write to `i` have been made, the value of `i` stays what it was. -/
theorem C09_existing_unchanged {n : Nat} {κ : Nat → Cfg α β} (hm : InitMem m l) (h : Exec m l n κ) {s t : Nat}
    (hst : s ≤ t) (ht : t ≤ n) {i : Nat} {v : α} (hv : (κ s).content i = some v)
    (hn : ∀ c op, (κ t).Called c op → ¬ op.MayWrite i) : (κ t).content i = some v := h.keep hm hst ht hv hn

section examples
open Demo

/-- Capacity and maximum capacity 3, two elements: `push 1` fits, `push 2` does not. -/
def Demo.full : List (Choice Nat Nat) := [.call (.push 1), .call (.push 2)] ++ go 1 6 ++ go 2 3

example : Possible [10, 20] 3 3 full ∧ (after [10, 20] 3 3 full).Panicked 2 (.push 2) .maxCapacity ∧
    (after [10, 20] 3 3 full).Returned 1 (.push 1) (.nat 2) ∧
    Received (fun t => after [10, 20] 3 3 (full.take t)) full.length 2 3 1 := by
  refine ⟨by unfold Possible; rfl, panicked_of rfl rfl, returned_of rfl rfl, ?_⟩
  refine ⟨8, .relaxed, by decide, ⟨_, _, _, _, _, rfl⟩, rfl, ?_⟩
  rintro ⟨op, ct, st, ag, k, hh⟩
  cases hh

end examples

end Verif
