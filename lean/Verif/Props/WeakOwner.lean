import Verif.Weak.Published
import Verif.Props.WeakValues
import Verif.Props.DemoWeakOwner
import Verif.Props.Owned

/-!
# Taking the vector back after concurrent use, under weak memory: C58 (and C43)

Theorems about all executions of the weak memory model (`Weak/Model.lean`), after which somebody with exclusive access calls one of the
functions of `Model/Owned.lean`.
-/

namespace Verif

variable {α β : Type} {m : Mem α} {l : List α} {κ : Weak.Cfg α β} {V : Weak.View}

open Weak

theorem Weak.settled_of (hm : InitMem m l) (h : Weak.Reach m κ) (hd : κ.Disciplined) (hV : κ.Exclusive V) : Settled l κ :=
  settled (D := modeOf κ False) hm h
    (fun c op hc => ⟨fun i ⟨c', hc'⟩ => hd c' i hc' c op hc, fun _ he => ⟨c, he ▸ hc⟩, fun h => h.elim, fun _ _ _ => trivial⟩) hV.idle

/-- **C58.** Whoever has exclusive access knows everything: they find one and the same memory however they read it, no stale value of
any counter, capacity or state byte; every access ever made to an element or to the storage happens before theirs, so that they cannot
race with any of them; and they can use the whole storage. -/
theorem C58_sees_everything (h : Weak.Reach m κ) (hV : κ.Exclusive V) :
    (∃ M, κ.Observes V M) ∧ (∀ M M', κ.Observes V M → κ.Observes V M' → M = M') ∧
    (∀ k, k < κ.mem.acc.length → V.seen k = true) ∧ ∀ i, i < κ.mem.alloc → κ.mem.usable V i = true := by
  have hC := hV.complete h
  obtain ⟨H, he, -⟩ := hV
  refine ⟨⟨_, (ended_in (binv h) he).observes⟩, fun M M' h1 h2 => by rw [hC.observes h1, hC.observes h2], hC.acc, fun i hi => ?_⟩
  unfold WMem.usable
  rw [Bool.and_eq_true, decide_eq_true_eq]
  refine ⟨hi, ?_⟩
  split
  · next k hk => exact hC.acc k (hC.allocAt i k hk)
  · rfl

/-- Whoever owns the vector after the nine calls of `Show.κ` finds 7 reserved positions and the capacity 7; a thread that knows nothing may
find the initial ones as well. -/
example : (∀ M, Show.κ.Observes (Show.owner Show.κ) M → M.reserved = 7 ∧ M.cap = 7 ∧ M.st 6 = .SOME) ∧
    (∃ M, Show.κ.Observes .bot M ∧ M.reserved = 2 ∧ M.cap = 2) ∧ ∃ M, Show.κ.Observes .bot M ∧ M.reserved = 7 ∧ M.cap = 7 := by
  obtain ⟨⟨M0, h0⟩, h1, -⟩ := C58_sees_everything Show.reach Show.κ_exclusive
  have hs := (Show.κ_exclusive.complete Show.reach).observes h0
  refine ⟨fun M hM => by rw [h1 M M0 hM h0, hs]; exact ⟨rfl, rfl, rfl⟩, ⟨{ Show.κ.mem.settled with reserved := 2, cap := 2 }, ?_, rfl, rfl⟩,
    ⟨_, (binv Show.reach).bot.observes, rfl, rfl⟩⟩
  have := (binv Show.reach).bot.observes
  exact { this with
    reserved := ⟨0, _, Nat.le_refl _, rfl, rfl⟩
    cap := ⟨0, _, Nat.le_refl _, rfl, rfl⟩ }

/-- **C58.** If all growth calls returned, then whoever has exclusive access finds a vector of exactly some list of values `vs`: one
for every initial position and for every position added by a call, nothing else. `to_vec` returns `vs`, `into_inner` a pinned vector of
`vs`, the `k`-th `next` of `into_iter` the `k`-th value. The values are those that all the accesses of all calls, in an order
that explains all results, leave behind; in particular an element that nobody writes to has the value it was created with. -/
theorem C58_to_vec (hm : InitMem m l) (h : Weak.Reach m κ) (hd : κ.Disciplined) (hV : κ.Exclusive V)
    (hall : ∀ c op k, κ.Called c op → op.size = some k → ∃ x, κ.Returned c op x) :
    ∃ vs : List α, (∀ M, κ.Observes V M → M.Holds vs ∧ M.toVec = some (.ok vs) ∧
        (∃ p, M.intoInner = some p ∧ p.elems = vs.map some ∧ p.Ok ∧ p.cap = M.cap ∧ p.maxCap = M.maxCap) ∧
        (∃ it, M.intoIter = some it ∧ ∀ n k, k < n → (nexts n it)[k]? = some (.ok vs[k]?))) ∧
      (∀ i, i < vs.length ↔ i < l.length ∨ ∃ c, κ.Added c i) ∧
      (∃ t σ, κ.ExplainedBy l t ∧ Replay (.ofList l) t σ ∧ ∀ i, σ.val i = vs[i]?) ∧
      ∀ i v, κ.Born l i v → (κ.Only fun op => ¬ op.MayWrite i) → vs[i]? = some v := by
  have S := settled_of hm h hd hV
  have noPanic : ∀ c op k n, κ.Panicked c op k → op.size = some n → False := by
    rintro c op k n ⟨r, h1, h2, h3⟩ hn
    obtain ⟨x, r', h1', -, h3'⟩ := hall c op n ⟨r, h1, h2⟩ hn
    rw [h1] at h1'; cases h1'
    rw [h3] at h3'; cases h3'
  have hle : κ.mem.settled.reserved ≤ κ.mem.alloc := by
    refine Nat.le_of_not_lt fun hlt => ?_
    have hval : ∀ i, i < κ.mem.settled.reserved → (κ.mem.val i).isSome := fun i hi => by
      by_cases hil : i < l.length
      · exact S.first i hil
      · obtain ⟨c, op, n, hc, hs, ha | ⟨k, hk⟩⟩ := S.rest i (by omega) hi
        · exact S.added c i ha
        · exact (noPanic c op k n hk hs).elim
    exact Nat.lt_irrefl _ (S.bound _ (hval _ hlt)).2
  have hval : ∀ i, i < κ.mem.settled.reserved → i < l.length ∨ ∃ c, κ.Added c i := fun i hi => by
    by_cases hil : i < l.length
    · exact .inl hil
    · obtain ⟨c, op, n, hc, hs, ha | ⟨k, hk⟩⟩ := S.rest i (by omega) hi
      · exact .inr ⟨c, ha⟩
      · exact (noPanic c op k n hk hs).elim
  obtain ⟨vs, hr, hlen⟩ := S.rep hle fun i hi => by
    rcases hval i hi with h1 | ⟨c, h1⟩
    · exact S.first i h1
    · exact S.added c i h1
  obtain ⟨t, E⟩ := C46_explained hm h hd
  obtain ⟨σ, hσ, hσv⟩ := E.replay
  have hv : ∀ i, κ.mem.val i = vs[i]? := hr.val
  refine ⟨vs, fun M hM => ?_, fun i => ?_, ⟨t, σ, E, hσ, fun i => by rw [hσv]; exact hv i⟩, fun i v hb hw => ?_⟩
  · rw [(hV.complete h).observes hM]
    refine ⟨hr.holds, hr.toVec, ⟨_, hr.intoInner, rfl, ⟨?_, hr.good⟩, rfl, rfl⟩,
      ⟨vs.map some, by simp [Mem.intoIter, hr.intoInner], fun n k hk => ?_⟩⟩
    · simpa using hr.cap
    · rw [nexts_get n k _ hk, List.getElem?_map]
      rcases vs[k]? with _ | v <;> rfl
  · rw [hlen]
    refine ⟨hval i, ?_⟩
    rintro (h1 | ⟨c, h1⟩)
    · exact (S.bound i (S.first i h1)).1
    · exact (S.bound i (S.added c i h1)).1
  · rw [← hv]
    obtain ⟨t1, t2, rfl, -, h2⟩ := explained_born E hb
    obtain ⟨hleg, hve⟩ := explained_legal E
    rw [← hve, specAt_append]
    refine specAt_keep (Legal.suffix hleg) h2 fun e he hm' => ?_
    obtain ⟨op, hc, ho⟩ := E.changed e (by simp [he])
    exact hw _ op hc (ho i hm')

/-- `Show.κ`: two calls grow `[10, 20]` at the same time, a third one afterwards. -/
example : ∃ M, Show.κ.Observes (Show.owner Show.κ) M ∧ M.toVec = some (.ok [10, 20, 1, 2, 3, 7, 9]) := by
  obtain ⟨⟨M, hM⟩, -⟩ := C58_sees_everything Show.reach Show.κ_exclusive
  obtain ⟨vs, h1, h2, -, h4⟩ := C58_to_vec Show.init Show.reach Show.disciplined Show.κ_exclusive Show.κ_grown
  refine ⟨M, hM, ?_⟩
  rw [(h1 M hM).2.1]
  have hv := (h1 M hM).1
  rw [(Show.κ_exclusive.complete Show.reach).observes hM] at hv
  have h7 : vs.length ≤ 7 := Nat.le_of_not_lt fun hlt => by
    have := hv 7
    rw [List.getElem?_eq_getElem hlt] at this
    cases this
  congr 2
  refine List.ext_getElem? fun i => ?_
  by_cases hi : i < 7
  · rw [← hv i]
    rcases i with _ | _ | _ | _ | _ | _ | _ | i <;> rfl
  · rw [List.getElem?_eq_none (by omega), List.getElem?_eq_none (by simp; omega)]

/-- **C58.** `into_inner` (when it respects the contract of the storage) after any history, also with panics: the returned vector has
one element per initial position and per position that was ever given to a growth call. Those of the initial positions and of the positions
added by returned calls have values. An element without a value is a position given to a growth call that panicked. The values are those
that all the accesses of all calls leave behind. `to_vec` panics if and only if there is an element without a value. -/
theorem C58_into_inner (hm : InitMem m l) (h : Weak.Reach m κ) (hd : κ.Disciplined) (hV : κ.Exclusive V) {M : Mem α}
    (hM : κ.Observes V M) {p : Pinned α} (hp : M.intoInner = some p) :
    (∀ i, p.elems[i]? = if i < p.elems.length then some (M.content i) else none) ∧
    (∀ i, p.elems.length ≤ i → M.content i = none) ∧
    (∀ i, i < l.length ∨ (∃ c, κ.Added c i) → ∃ v, p.elems[i]? = some (some v)) ∧
    (∃ t σ, κ.ExplainedBy l t ∧ Replay (.ofList l) t σ ∧ σ.len = p.elems.length ∧ (∀ i, σ.val i = (p.elems[i]?).join) ∧
      ∀ i : Nat, p.elems[i]? = some none → ∃ c op b n k, κ.Panicked c op k ∧ op.size = some n ∧ Ev.reserve c b n ∈ t ∧
        b ≤ i ∧ i < b + n) ∧
    (M.toVec = some (.error .unwrapNone) ↔ none ∈ p.elems) := by
  have S := settled_of hm h hd hV
  have he := (hV.complete h).observes hM
  subst he
  have hcont : ∀ i, κ.mem.settled.content i = κ.mem.val i := fun i => by
    unfold Mem.content
    rcases hv : κ.mem.val i with _ | v
    · rw [if_pos (S.none i hv)]
    · rw [if_neg (by rw [S.some i (by rw [hv]; rfl)]; simp)]; exact hv
  have hel : p.elems = (List.range κ.mem.settled.reserved).map κ.mem.settled.content := by
    unfold Mem.intoInner at hp
    split at hp
    · cases hp
      refine List.map_congr_left fun i _ => ?_
      rw [hcont]
      rcases hv : κ.mem.val i with _ | v
      · rw [if_neg (by rw [S.none i hv]; simp)]
      · rw [if_pos (S.some i (by rw [hv]; rfl))]; exact hv
    · cases hp
  have hlen : p.elems.length = κ.mem.settled.reserved := by rw [hel]; simp
  have hget : ∀ i, p.elems[i]? = if i < p.elems.length then some (κ.mem.settled.content i) else none := fun i => by
    rw [hlen, hel, getElem?_range_map]
  have hout : ∀ i, p.elems.length ≤ i → κ.mem.val i = none := fun i hi => by
    rcases hv : κ.mem.val i with _ | v
    · rfl
    · have := (S.bound i (by rw [hv]; rfl)).1; omega
  have hin : ∀ i, i < l.length ∨ (∃ c, κ.Added c i) → (κ.mem.val i).isSome := by
    rintro i (h1 | ⟨c, h1⟩)
    · exact S.first i h1
    · exact S.added c i h1
  obtain ⟨K, K0, S', t, hW, hT⟩ := tinv_of hm h hd
  have E := hT.explained hW
  refine ⟨hget, fun i hi => by rw [hcont]; exact hout i hi, fun i hi => ?_,
    ⟨t, _, E, legal_replay hT.legal, by rw [hT.len, hlen]; rfl, fun i => ?_, fun i hi => ?_⟩, ?_⟩
  · have hs := hin i hi
    have := (S.bound i hs).1
    rw [hget, if_pos (by omega), hcont]
    obtain ⟨v, hv⟩ := Option.isSome_iff_exists.1 hs
    exact ⟨v, by rw [hv]⟩
  · rw [hT.val, hget]
    split
    · rw [hcont]; rfl
    · exact hout i (by omega)
  · rw [hget] at hi
    split at hi
    · next hlt =>
      rw [hcont, Option.some.injEq] at hi
      have hno : ¬ (i < l.length ∨ ∃ c, κ.Added c i) := fun h1 => by
        have := hin i h1
        rw [hi] at this; cases this
      rw [not_or] at hno
      obtain ⟨b, n, hmem, hb, hbn⟩ := Legal.owner_reserved hT.legal (i := i) (by rw [hT.len]; exact Nat.lt_of_lt_of_eq hlt hlen) (by omega)
      obtain ⟨op, ⟨q, hq, rfl⟩, hs⟩ := E.reserved _ b n hmem
      rcases running_of hq with ⟨y, hy⟩ | ⟨x, hx⟩ | ⟨k, hk⟩
      · exact absurd ⟨q, y, hq, rfl, hy⟩ (hV.idle _ q.op)
      · have he := E.returned _ q.op x _ ⟨q, hq, rfl, hx⟩ (.inl rfl)
        have := explains_reserve he hs (mem_dataOf.2 ⟨hmem, rfl, rfl⟩)
        subst this
        exact absurd ⟨_, q.op, n, b, ⟨q, hq, rfl, hx⟩, hs, hb, hbn⟩ hno.2
      · exact ⟨_, q.op, b, n, k, ⟨q, hq, rfl, hk⟩, hs, hmem, hb, hbn⟩
    · cases hi
  · have : κ.mem.settled.toVec = some (unwrapAll p.elems) := by simp [Mem.toVec, hp]
    rw [this, Option.some.injEq, ← unwrapAll_error]
    exact ⟨fun h => ⟨_, h⟩, fun ⟨k, hk⟩ => by rw [hk, unwrapAll_kind hk]⟩

/-- `Show.η`: the iterator given to `extend` panics before its second item; position 3 has no value, position 4 has. -/
example : ∃ M p, Show.η.Observes (Show.owner Show.η) M ∧ M.intoInner = some p ∧
    p.elems = [some 10, some 20, some 1, none, some 5] ∧ M.toVec = some (.error .unwrapNone) ∧
    Show.η.Panicked 1 (.extendN [some 1, none] 2) .userCode := by
  obtain ⟨⟨M, hM⟩, -⟩ := C58_sees_everything Show.η_reach Show.η_exclusive
  have hs := (Show.η_exclusive.complete Show.η_reach).observes hM
  have hp : M.intoInner = some ⟨[some 10, some 20, some 1, none, some 5], M.cap, M.maxCap, M.pol⟩ := by rw [hs]; rfl
  exact ⟨M, _, hM, hp, rfl, (C58_into_inner Show.init Show.η_reach Show.η_disciplined Show.η_exclusive hM hp).2.2.2.2.2 (by simp),
    Cfg.panicked_of rfl rfl⟩

/-- **C58.** Taking the vector back respects the contract of the storage if no growth call failed because of the maximum capacity and no
closure given to `push_for_idx` panicked; other panics do no harm. -/
theorem C58_works (hm : InitMem m l) (h : Weak.Reach m κ) (hd : κ.Disciplined) (hV : κ.Exclusive V)
    (h1 : ∀ c op, ¬ κ.Panicked c op .maxCapacity) (h2 : ∀ c f, ¬ κ.Panicked c (.pushForIdx f) .userCode) {M : Mem α}
    (hM : κ.Observes V M) :
    M.intoInner.isSome ∧ M.toVec.isSome ∧ M.intoIter.isSome ∧ ∀ cap maxCap, (M.clear cap maxCap).isSome := by
  have S := settled_of hm h hd hV
  have he := (hV.complete h).observes hM
  subst he
  have hle : κ.mem.settled.reserved ≤ κ.mem.settled.cap := by
    rw [S.cap]
    exact reserved_exists (D := modeOf κ False) hm h
      (fun c op hc => ⟨fun i ⟨c', hc'⟩ => hd c' i hc' c op hc, fun _ he => ⟨c, he ▸ hc⟩, fun h => h.elim, fun _ _ _ => trivial⟩)
      hV.idle h1 h2
  have hin : κ.mem.settled.intoInner.isSome := by unfold Mem.intoInner; rw [if_pos hle]; rfl
  refine ⟨hin, by simp [Mem.toVec, hin], by simp [Mem.intoIter, hin], fun cap maxCap => ?_⟩
  unfold Mem.clear; rw [if_pos hle]; rfl

/-- `Show.η` with its hole can be taken back. -/
example : ∃ M, Show.η.Observes (Show.owner Show.η) M ∧ M.intoInner.isSome ∧ ∀ cap maxCap, (M.clear cap maxCap).isSome := by
  obtain ⟨⟨M, hM⟩, -⟩ := C58_sees_everything Show.η_reach Show.η_exclusive
  have key : ∀ c op k, Show.η.Panicked c op k → c = 1 ∧ k = .userCode := by
    rintro c op k ⟨r, hc, -, hk⟩
    have h1 : c < Show.η.next := Nat.lt_of_not_le fun hle => by rw [Show.η_reach.new c hle] at hc; cases hc
    have h1 : c < 3 := h1
    rcases c with _ | _ | _ | c
    · cases hc
    · cases hc; cases hk; exact ⟨rfl, rfl⟩
    · cases hc; cases hk
    · exact absurd h1 (Nat.not_lt.2 (Nat.le_add_left 3 c))
  have hw := C58_works Show.init Show.η_reach Show.η_disciplined Show.η_exclusive
    (fun c op hp => by have := (key c op _ hp).2; cases this)
    (fun c f hp => by
      obtain ⟨rfl, -⟩ := key c _ _ hp
      obtain ⟨r, hc, ho, -⟩ := hp
      cases hc; cases ho) hM
  exact ⟨M, hM, hw.1, hw.2.2.2⟩

/-- **C58.** The other way round, as in C26: after a growth call failed because of the maximum capacity, whatever happened before and
since, every way of taking the vector back violates the contract of the storage. -/
theorem C58_fails (hm : InitMem m l) (h : Weak.Reach m κ) (hd : κ.Disciplined) (hV : κ.Exclusive V) {c : Cid} {op : Op α β}
    (hp : κ.Panicked c op .maxCapacity) {M : Mem α} (hM : κ.Observes V M) :
    M.intoInner = none ∧ M.toVec = none ∧ M.intoIter = none ∧ ∀ cap maxCap, M.clear cap maxCap = none := by
  have S := settled_of hm h hd hV
  have he := (hV.complete h).observes hM
  subst he
  have hlt : ¬ κ.mem.settled.reserved ≤ κ.mem.settled.cap := by
    rw [S.cap]
    exact Nat.not_le.2 (overrun_of (D := modeOf κ False) hm h
      (fun c op hc => ⟨fun i ⟨c', hc'⟩ => hd c' i hc' c op hc, fun _ he => ⟨c, he ▸ hc⟩, fun h => h.elim, fun _ _ _ => trivial⟩) hp)
  have hin : κ.mem.settled.intoInner = none := by unfold Mem.intoInner; rw [if_neg hlt]
  refine ⟨hin, by simp [Mem.toVec, hin], by simp [Mem.intoIter, hin], fun cap maxCap => ?_⟩
  unfold Mem.clear; rw [if_neg hlt]

/-- `Show.ξ`: one failed push. -/
example : ∃ M, Show.ξ.Observes (Show.owner Show.ξ) M ∧ M.intoInner = none := by
  obtain ⟨⟨M, hM⟩, -⟩ := C58_sees_everything Show.ξ_reach Show.ξ_exclusive
  exact ⟨M, hM, (C58_fails Show.ξ_init Show.ξ_reach Show.ξ_disciplined Show.ξ_exclusive (c := 1) (op := .push 5)
    (Cfg.panicked_of rfl rfl) hM).1⟩

/-- **C58.** After taking the vector back it can be shared again: if all growth calls returned, then `into_inner` followed by
`From` is an initial vector of the same values, and `clear` (whatever capacities the storage keeps; also after panics, if it respects the
contract of the storage) makes an empty initial vector. All properties of executions apply to what follows. -/
theorem C58_reuse (hm : InitMem m l) (h : Weak.Reach m κ) (hd : κ.Disciplined) (hV : κ.Exclusive V) {M : Mem α}
    (hM : κ.Observes V M) :
    ((∀ c op k, κ.Called c op → op.size = some k → ∃ x, κ.Returned c op x) →
      ∃ p vs, M.intoInner = some p ∧ M.Holds vs ∧ InitMem p.toShared vs) ∧
    ∀ cap maxCap m', M.pol.good cap maxCap → M.clear cap maxCap = some m' → InitMem m' [] := by
  refine ⟨fun hall => ?_, fun cap maxCap m' hg hc => ?_⟩
  · obtain ⟨vs, h1, -⟩ := C58_to_vec hm h hd hV hall
    obtain ⟨h2, -, ⟨p, h3, h4, h5, -⟩, -⟩ := h1 M hM
    exact ⟨p, vs, h3, h2, Pinned.toShared_init h5 h4⟩
  · have S := settled_of hm h hd hV
    have he := (hV.complete h).observes hM
    subst he
    have hout : ∀ i, ¬ i < κ.mem.settled.reserved → κ.mem.val i = none := fun i hi => by
      rcases hv : κ.mem.val i with _ | v
      · rfl
      · exact absurd (S.bound i (by rw [hv]; rfl)).1 hi
    unfold Mem.clear at hc
    split at hc
    · cases hc
      refine ⟨rfl, rfl, fun i => ?_, fun i => ?_, Nat.zero_le _, rfl, rfl, hg⟩
      · show (if i < κ.mem.settled.reserved then CState.NONE else κ.mem.settled.st i) = if i < 0 then .SOME else .NONE
        rw [if_neg (Nat.not_lt_zero i)]
        split
        · rfl
        · next hi => exact S.none i (hout i hi)
      · show (if i < κ.mem.settled.reserved then none else κ.mem.val i) = none
        split
        · rfl
        · next hi => exact hout i hi
    · cases hc

/-- After `Show.κ` the vector is taken back and shared again; after `Show.η`, which left a hole, it is cleared. -/
example : (∃ M p vs, Show.κ.Observes (Show.owner Show.κ) M ∧ M.intoInner = some p ∧ InitMem p.toShared vs) ∧
    ∃ M m', Show.η.Observes (Show.owner Show.η) M ∧ M.clear 8 8 = some m' ∧ InitMem m' [] := by
  constructor
  · obtain ⟨⟨M, hM⟩, -⟩ := C58_sees_everything Show.reach Show.κ_exclusive
    obtain ⟨p, vs, h1, -, h2⟩ := (C58_reuse Show.init Show.reach Show.disciplined Show.κ_exclusive hM).1 Show.κ_grown
    exact ⟨M, p, vs, hM, h1, h2⟩
  · obtain ⟨⟨M, hM⟩, -⟩ := C58_sees_everything Show.η_reach Show.η_exclusive
    have hs := (Show.η_exclusive.complete Show.η_reach).observes hM
    have hc : ∃ m', M.clear 8 8 = some m' := by rw [hs]; exact ⟨_, rfl⟩
    obtain ⟨m', hc⟩ := hc
    refine ⟨M, m', hM, hc, (C58_reuse Show.init Show.η_reach Show.η_disciplined Show.η_exclusive hM).2 8 8 m' ?_ hc⟩
    rw [hs]; exact Nat.le_refl 8

/-- **C58.** The updates of all threads are in the result: if all calls that may write to position `i` are the returned `update(f)` calls
`cs`, then `to_vec` returns at this position `f` applied `cs.length` times to its first value. -/
theorem C58_no_lost_update (hm : InitMem m l) (h : Weak.Reach m κ) (hd : κ.Disciplined) (hV : κ.Exclusive V)
    (hg : ∀ c op k, κ.Called c op → op.size = some k → ∃ x, κ.Returned c op x) {i : Nat} {v0 : α} (hb : κ.Born l i v0)
    {f : α → α} {cs : List Cid} (hnd : cs.Nodup) (hret : ∀ c ∈ cs, κ.Returned c (.elUpdate (fun v => (f v, true)) i) .unit)
    (hall : ∀ c op, κ.Called c op → op.MayWrite i → c ∈ cs) {M : Mem α} (hM : κ.Observes V M) :
    ∃ vs, M.toVec = some (.ok vs) ∧ vs[i]? = some (f^[cs.length] v0) := by
  obtain ⟨vs, h1, -, ⟨t, σ, E, hσ, hv⟩, -⟩ := C58_to_vec hm h hd hV hg
  refine ⟨vs, (h1 M hM).2.1, ?_⟩
  rw [← (C48_no_lost_update hm h hd hb hnd hret hall).1, ← hv, hσ.eq, (explained_legal E).2]

/-- `Show.ν`: two threads increment element 1 at the same time, two others replace element 0, a fifth one pushes. -/
example : ∃ M vs, Show.ν.Observes (Show.owner Show.ν) M ∧ M.toVec = some (.ok vs) ∧ vs[1]? = some 22 := by
  have hV : Show.ν.Exclusive (Show.owner Show.ν) := Show.owner_exclusive Show.ν_reach rfl rfl
  obtain ⟨⟨M, hM⟩, -⟩ := C58_sees_everything Show.ν_reach hV
  obtain ⟨vs, h1, h2⟩ := C58_no_lost_update Show.init Show.ν_reach Show.ν_disciplined hV (Show.grown_of Show.ν_reach rfl)
    (i := 1) (v0 := 20) (.inl rfl) (f := fun v => v + 1) (cs := [2, 3]) (by decide)
    (by
      intro c hc
      simp only [List.mem_cons, List.not_mem_nil, or_false] at hc
      rcases hc with rfl | rfl
      · exact Cfg.returned_of rfl rfl
      · exact Cfg.returned_of rfl rfl)
    (by
      intro c op hc hw
      obtain ⟨h1, h2⟩ := Show.called_of Show.ν_reach (k := 10) rfl hc
      match c, h1, h2 with
      | 0, _, h2 => cases h2
      | 1, _, h2 => cases h2; exact hw.elim
      | 2, _, h2 => decide
      | 3, _, h2 => decide
      | 4, _, h2 => cases h2; cases hw
      | 5, _, h2 => cases h2; cases hw
      | 6, _, h2 => cases h2; exact hw.elim
      | 7, _, h2 => cases h2; exact hw.elim
      | 8, _, h2 => cases h2; exact hw.elim
      | 9, _, h2 => cases h2; exact hw.elim) hM
  exact ⟨M, vs, hM, h1, h2⟩

/-! ## C43 -/

/-- **C43 is false**, also under weak memory: if a growth call failed because of the maximum capacity, then no growth call (for at
least one position) that happens after it ever returns, however much the maximum capacity was raised in between. -/
theorem C43_weak_never (hm : InitMem m l) (h : Weak.Reach m κ) (hd : κ.Disciplined) {c d : Cid} {opc op : Op α β} {x : Ret α β} {sz : Nat}
    (hp : κ.Panicked c opc .maxCapacity) (hb : κ.HB c d) (hsz : op.size = some sz) (hpos : 0 < sz) : ¬ κ.Returned d op x := by
  intro hr
  obtain ⟨K, K0, hW, -, hO⟩ := oinv (D := modeOf κ False) hm h
    (fun c op hc => ⟨fun i ⟨c', hc'⟩ => hd c' i hc' c op hc, fun _ he => ⟨c, he ▸ hc⟩, fun h => h.elim, fun _ _ _ => trivial⟩)
  obtain ⟨j, hj, ha, -⟩ := hO c opc hp
  obtain ⟨b, -, -, h1, -, h2⟩ := (hW.done hr).grow sz hsz
  have h3 := (hW.k c).r_rk j hj
  have h4 := (hW.hb_le hb).2.rk
  have h5 := usable_lt ((hW.k d).a b (h2 b (Nat.le_refl _) (by omega)).2.2.1).1
  omega

/-- `Show.ζ`: call 1 fails, the maximum capacity is raised from 2 to 8, call 2 is still running. -/
example : Show.ζ.mem.maxCap = 8 ∧ Show.ζ.Panicked 1 (.push 5) .maxCapacity ∧ (∃ op, Show.ζ.Running 2 op) ∧
    ∀ x, ¬ Show.ζ.Returned 2 (.push 6) x :=
  ⟨rfl, Cfg.panicked_of rfl rfl, ⟨_, _, _, rfl, rfl, rfl⟩, fun _ => C43_weak_never Show.ξ_init Show.ζ_reach Show.ζ_disciplined (c := 1)
    (Cfg.panicked_of (op := .push 5) rfl rfl) (Cfg.hb_of (H := [1]) rfl (by decide)) rfl Nat.one_pos⟩

end Verif
