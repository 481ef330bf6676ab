import Verif.Proof.Sound
import Mathlib.Data.List.Induction

/-!
# Traces and calls

Helper file (no property statements): consequences of the configuration invariant in terms of traces.
-/

namespace Verif

variable {α β : Type}

/-! ## Replay -/

/-- Abstract state after the events `t`. -/
abbrev specAt (σ₀ : SpecSt α) (t : List (Ev α)) : SpecSt α := t.foldl specNext σ₀

theorem specAt_snoc (σ₀ : SpecSt α) (t : List (Ev α)) (e : Ev α) :
    specAt σ₀ (t ++ [e]) = specNext (specAt σ₀ t) e := by simp [specAt]

theorem specAt_append (σ₀ : SpecSt α) (t u : List (Ev α)) :
    specAt σ₀ (t ++ u) = specAt (specAt σ₀ t) u := by simp [specAt]

theorem Replay.eq {σ₀ σ : SpecSt α} {t : List (Ev α)} (h : Replay σ₀ t σ) : σ = specAt σ₀ t := by
  induction h with
  | nil => rfl
  | snoc _ _ ih => rw [specAt_snoc, ← ih]

theorem Replay.ok {σ₀ σ : SpecSt α} {t : List (Ev α)} (h : Replay σ₀ t σ) :
    ∀ t1 e t2, t = t1 ++ e :: t2 → specOk (specAt σ₀ t1) e := by
  induction h with
  | nil => intro t1 e t2 h; simp at h
  | snoc hr hok ih =>
    intro t1 e t2 heq
    rcases List.eq_nil_or_concat t2 with rfl | ⟨t2', y, rfl⟩
    · obtain ⟨h1, h2⟩ := List.append_inj' heq rfl
      simp only [List.cons.injEq, and_true] at h2
      subst h1 h2
      rw [← hr.eq]; exact hok
    · rw [List.concat_eq_append, ← List.cons_append, ← List.append_assoc] at heq
      exact ih t1 e t2' (List.append_inj' heq rfl).1

/-- All events of the trace are legal. -/
def Legal (σ₀ : SpecSt α) (t : List (Ev α)) : Prop := ∀ t1 e t2, t = t1 ++ e :: t2 → specOk (specAt σ₀ t1) e

theorem Legal.prefix {σ₀ : SpecSt α} {t u : List (Ev α)} (h : Legal σ₀ (t ++ u)) : Legal σ₀ t :=
  fun t1 e t2 he => h t1 e (t2 ++ u) (by rw [he]; simp)

theorem Legal.suffix {σ₀ : SpecSt α} {t u : List (Ev α)} (h : Legal σ₀ (t ++ u)) : Legal (specAt σ₀ t) u :=
  fun t1 e t2 he => by rw [← specAt_append]; exact h (t ++ t1) e t2 (by rw [he]; simp)

theorem specNext_len (σ : SpecSt α) (e : Ev α) : σ.len ≤ (specNext σ e).len := by
  cases e <;> simp [specNext]

theorem specAt_len (σ : SpecSt α) (t : List (Ev α)) : σ.len ≤ (specAt σ t).len := by
  induction t generalizing σ with
  | nil => exact Nat.le_refl _
  | cons e t ih => exact Nat.le_trans (specNext_len σ e) (ih _)

theorem specNext_pub {σ : SpecSt α} {e : Ev α} (hok : specOk σ e) {i : Nat} (h : (σ.val i).isSome) :
    ((specNext σ e).val i).isSome := by
  cases e with
  | publish c j v => simp only [specNext, upd_apply]; split <;> simp [h]
  | write c j o v => simp only [specNext, upd_apply]; split <;> simp [h]
  | swap c j k =>
    simp only [specOk] at hok
    simp only [specNext, upd_apply]
    split
    · exact hok.2.1
    · split
      · exact hok.2.2
      · exact h
  | _ => exact h

theorem specAt_pub {σ : SpecSt α} {t : List (Ev α)} (hok : Legal σ t) {i : Nat} (h : (σ.val i).isSome) :
    ((specAt σ t).val i).isSome := by
  induction t generalizing σ with
  | nil => exact h
  | cons e t ih =>
    exact ih (Legal.suffix (t := [e]) hok) (specNext_pub (hok [] e t rfl) h)

theorem specNext_keep {σ : SpecSt α} {e : Ev α} (hok : specOk σ e) {i : Nat} {v : α} (h : σ.val i = some v)
    (hm : ¬ e.Modifies i) : (specNext σ e).val i = some v := by
  cases e with
  | publish c j v =>
    simp only [specOk] at hok
    simp only [specNext, upd_apply]
    split
    · rename_i hij; subst hij; rw [hok.2.2] at h; cases h
    · exact h
  | write c j o v =>
    simp only [Ev.Modifies] at hm
    simp only [specNext, upd_apply, if_neg hm, h]
  | swap c j k =>
    simp only [Ev.Modifies, not_or] at hm
    simp only [specNext, upd_apply, if_neg hm.1, if_neg hm.2, h]
  | _ => exact h

theorem specAt_keep {σ : SpecSt α} {t : List (Ev α)} (hok : Legal σ t) {i : Nat} {v : α} (h : σ.val i = some v)
    (hm : ∀ e ∈ t, ¬ e.Modifies i) : (specAt σ t).val i = some v := by
  induction t generalizing σ with
  | nil => exact h
  | cons e t ih =>
    exact ih (Legal.suffix (t := [e]) hok) (specNext_keep (hok [] e t rfl) h (hm e (by simp)))
      (fun e' he' => hm e' (by simp [he']))

/-- A position without value keeps having none unless it is published. -/
theorem specNext_none {σ : SpecSt α} {e : Ev α} (hok : specOk σ e) {i : Nat} (h : σ.val i = none)
    (hm : ∀ c v, e ≠ .publish c i v) : (specNext σ e).val i = none := by
  cases e with
  | publish c j v =>
    simp only [specNext, upd_apply]
    split
    · rename_i hij; subst hij; exact absurd rfl (hm c v)
    · exact h
  | write c j o v =>
    simp only [specOk] at hok
    simp only [specNext, upd_apply]
    split
    · rename_i hij; subst hij; rw [hok] at h; cases h
    · exact h
  | swap c j k =>
    simp only [specOk] at hok
    simp only [specNext, upd_apply]
    split
    · rename_i hij; subst hij; rw [h] at hok; simp at hok
    · split
      · rename_i hij; subst hij; rw [h] at hok; simp at hok
      · exact h
  | _ => exact h

theorem specAt_none {σ : SpecSt α} {t : List (Ev α)} (hok : Legal σ t) {i : Nat} (h : σ.val i = none)
    (hm : ∀ c v, Ev.publish c i v ∉ t) : (specAt σ t).val i = none := by
  induction t generalizing σ with
  | nil => exact h
  | cons e t ih =>
    exact ih (Legal.suffix (t := [e]) hok)
      (specNext_none (hok [] e t rfl) h fun c v he => hm c v (by simp [he])) (fun c v he => hm c v (by simp [he]))

theorem specNext_owner {σ : SpecSt α} {e : Ev α} (hok : specOk σ e) {i : Nat} (h : i < σ.len) :
    (specNext σ e).owner i = σ.owner i := by
  cases e with
  | reserve c b n =>
    simp only [specOk] at hok
    simp only [specNext]
    rw [if_neg]; omega
  | _ => rfl

theorem specAt_owner {σ : SpecSt α} {t : List (Ev α)} (hok : Legal σ t) {i : Nat} (h : i < σ.len) :
    (specAt σ t).owner i = σ.owner i := by
  induction t generalizing σ with
  | nil => rfl
  | cons e t ih =>
    have hok0 : specOk σ e := hok [] e t rfl
    rw [← specNext_owner hok0 h]
    exact ih (Legal.suffix (t := [e]) hok) (Nat.lt_of_lt_of_le h (specNext_len σ e))

/-- Two reservations in a trace: the later one gets larger positions. -/
theorem Legal.reserve_lt {σ₀ : SpecSt α} {t1 t2 t3 : List (Ev α)} {c1 c2 : Cid} {b1 n1 b2 n2 : Nat}
    (h : Legal σ₀ (t1 ++ .reserve c1 b1 n1 :: (t2 ++ .reserve c2 b2 n2 :: t3))) : b1 + n1 ≤ b2 := by
  have h1 : b1 = (specAt σ₀ t1).len := h t1 _ _ rfl
  have h2 : b2 = (specAt σ₀ (t1 ++ .reserve c1 b1 n1 :: t2)).len :=
    h (t1 ++ .reserve c1 b1 n1 :: t2) (.reserve c2 b2 n2) t3 (by simp)
  rw [specAt_append] at h2
  have h3 := specAt_len (specNext (specAt σ₀ t1) (.reserve c1 b1 n1)) t2
  simp only [specNext] at h3
  simp only [specAt, List.foldl_cons, specNext] at h2 h3 h1
  omega

/-- Reserved positions are beyond the initial ones. -/
theorem Legal.reserve_ge {σ₀ : SpecSt α} {t : List (Ev α)} {c : Cid} {b n : Nat}
    (h : Legal σ₀ t) (he : Ev.reserve c b n ∈ t) : σ₀.len ≤ b ∧ b + n ≤ (specAt σ₀ t).len := by
  obtain ⟨t1, t2, rfl⟩ := List.append_of_mem he
  have h1 : b = (specAt σ₀ t1).len := h t1 _ _ rfl
  have h2 := specAt_len σ₀ t1
  have h3 := specAt_len (specNext (specAt σ₀ t1) (.reserve c b n)) t2
  rw [specAt_append]
  simp only [specAt, List.foldl_cons, specNext] at h1 h2 h3 ⊢
  omega

theorem split_two {γ : Type} {t : List γ} {x y : γ} (hx : x ∈ t) (hy : y ∈ t) (hne : x ≠ y) :
    (∃ t1 t2 t3, t = t1 ++ x :: (t2 ++ y :: t3)) ∨ (∃ t1 t2 t3, t = t1 ++ y :: (t2 ++ x :: t3)) := by
  obtain ⟨t1, t2, rfl⟩ := List.append_of_mem hx
  rcases List.mem_append.1 hy with hy | hy
  · obtain ⟨t3, t4, rfl⟩ := List.append_of_mem hy
    exact .inr ⟨t3, t4, t2, by simp⟩
  · rcases List.mem_cons.1 hy with rfl | hy
    · exact absurd rfl hne
    · obtain ⟨t3, t4, rfl⟩ := List.append_of_mem hy
      exact .inl ⟨t1, t3, t4, rfl⟩

/-- Reservations of the same positions are the same event. -/
theorem Legal.reserve_inj {σ₀ : SpecSt α} {t : List (Ev α)} {c1 c2 : Cid} {b1 n1 b2 n2 i : Nat} (h : Legal σ₀ t)
    (h1 : Ev.reserve c1 b1 n1 ∈ t) (h2 : Ev.reserve c2 b2 n2 ∈ t)
    (hi1 : b1 ≤ i ∧ i < b1 + n1) (hi2 : b2 ≤ i ∧ i < b2 + n2) : c1 = c2 := by
  by_cases he : (Ev.reserve c1 b1 n1 : Ev α) = .reserve c2 b2 n2
  · cases he; rfl
  · rcases split_two h1 h2 he with ⟨t1, t2, t3, rfl⟩ | ⟨t1, t2, t3, rfl⟩
    · have := h.reserve_lt; omega
    · have := h.reserve_lt; omega

/-- A position is published at most once. -/
theorem Legal.publish_once {σ₀ : SpecSt α} {t1 t2 t3 : List (Ev α)} {c1 c2 : Cid} {i : Nat} {v1 v2 : α}
    (h : Legal σ₀ (t1 ++ .publish c1 i v1 :: (t2 ++ .publish c2 i v2 :: t3))) : False := by
  have h2 := h (t1 ++ .publish c1 i v1 :: t2) (.publish c2 i v2) t3 (by simp)
  have hp := Legal.suffix (t := t1) h
  have hp : Legal (specAt σ₀ t1) ([Ev.publish c1 i v1] ++ (t2 ++ .publish c2 i v2 :: t3)) := hp
  have hp2 := (Legal.suffix hp).prefix
  have := specAt_pub hp2 (i := i) (by simp [specAt, specNext])
  rw [specAt_append] at h2
  simp only [specOk, specAt, List.foldl_cons, List.foldl_nil] at h2 this
  rw [h2.2.2] at this
  cases this

/-- The value published by an event, right after it. -/
theorem Legal.publish_pub {σ₀ : SpecSt α} {t : List (Ev α)} {c : Cid} {i : Nat} {v : α} (h : Legal σ₀ t)
    (he : Ev.publish c i v ∈ t) : ((specAt σ₀ t).val i).isSome := by
  obtain ⟨t1, t2, rfl⟩ := List.append_of_mem he
  have hs : Legal (specAt σ₀ t1) ([Ev.publish c i v] ++ t2) := Legal.suffix h
  rw [specAt_append]
  exact specAt_pub (σ := specNext (specAt σ₀ t1) (.publish c i v)) (Legal.suffix hs) (by simp [specNext])

/-- A published value stays until somebody modifies the position. -/
theorem Legal.publish_keep {σ₀ : SpecSt α} {t : List (Ev α)} {c : Cid} {i : Nat} {v : α} (h : Legal σ₀ t)
    (he : Ev.publish c i v ∈ t) (hm : ∀ e ∈ t, ¬ e.Modifies i) : (specAt σ₀ t).val i = some v := by
  obtain ⟨t1, t2, rfl⟩ := List.append_of_mem he
  have hs : Legal (specAt σ₀ t1) ([Ev.publish c i v] ++ t2) := Legal.suffix h
  rw [specAt_append]
  exact specAt_keep (σ := specNext (specAt σ₀ t1) (.publish c i v)) (Legal.suffix hs) (by simp [specNext])
    (fun e he => hm e (by simp [he]))

/-- A published position was reserved by the publisher. -/
theorem Legal.owner_reserved {l : List α} {t : List (Ev α)} (h : Legal (.ofList l) t) {i : Nat}
    (hi : i < (specAt (.ofList l) t).len) (hl : l.length ≤ i) :
    ∃ b n, Ev.reserve ((specAt (.ofList l) t).owner i) b n ∈ t ∧ b ≤ i ∧ i < b + n := by
  induction t using List.reverseRecOn with
  | nil => simp [specAt, SpecSt.ofList] at hi; omega
  | append_singleton t e ih =>
    rw [specAt_snoc] at hi ⊢
    have hok : specOk (specAt (.ofList l) t) e := h t e [] rfl
    by_cases hlt : i < (specAt (SpecSt.ofList l) t).len
    · obtain ⟨b, n, hm, hb⟩ := ih h.prefix hlt
      refine ⟨b, n, ?_, hb⟩
      rw [specNext_owner hok hlt]
      simp [hm]
    · cases e with
      | reserve c b n =>
        simp only [specOk] at hok
        simp only [specNext] at hi ⊢
        refine ⟨b, n, ?_, by omega, by omega⟩
        rw [if_pos (by omega)]
        simp
      | _ => exact absurd hi hlt

/-! ## Data events -/

theorem mem_dataOf {c : Cid} {t : List (Ev α)} {e : Ev α} :
    e ∈ dataOf c t ↔ e ∈ t ∧ e.isData = true ∧ e.cid = c := by
  simp [dataOf]

theorem dataOf_split {c : Cid} {t d1 d2 : List (Ev α)} {e : Ev α} (h : dataOf c t = d1 ++ e :: d2) :
    ∃ t1 t2, t = t1 ++ e :: t2 ∧ dataOf c t1 = d1 ∧ dataOf c t2 = d2 ∧ e.isData = true ∧ e.cid = c := by
  unfold dataOf at h
  rw [List.filter_eq_append_iff] at h
  obtain ⟨u1, u2, rfl, h1, h2⟩ := h
  rw [List.filter_eq_cons_iff] at h2
  obtain ⟨u3, u4, rfl, h3, h4, h5⟩ := h2
  refine ⟨u1 ++ u3, u4, by simp, ?_, h5, ?_, ?_⟩
  · rw [dataOf_append]
    have : dataOf c u3 = [] := by
      simp only [dataOf, List.filter_eq_nil_iff]; exact h3
    rw [this, List.append_nil]; exact h1
  · simp at h4; exact h4.1
  · simp at h4; exact h4.2

theorem dataOf_cons_data {c : Cid} {t : List (Ev α)} {e : Ev α} (h1 : e.isData = true) (h2 : e.cid = c) :
    dataOf c (e :: t) = e :: dataOf c t := by
  simp [dataOf, h1, h2]

/-! ## Calls -/

section calls

variable {σ₀ : SpecSt α} {κ : Cfg α β}

theorem Inv.legal {w : World α} (h : Inv σ₀ w) : Legal σ₀ w.trace := h.replay.ok

theorem Inv.spec_eq {w : World α} (h : Inv σ₀ w) : w.spec = specAt σ₀ w.trace := h.replay.eq

theorem Inv.content_eq {w : World α} (h : Inv σ₀ w) (i : Nat) : w.mem.content i = w.spec.val i := by
  unfold Mem.content
  rcases hv : w.spec.val i with _ | v
  · rw [if_pos ((h.st_none i).2 hv)]
  · rw [if_neg]
    · rw [h.val_eq i (by simp [hv]), hv]
    · intro hs; rw [(h.st_none i).1 hs] at hv; cases hv

/-- Everything known about a call that returned. -/
structure RetInfo (σ₀ : SpecSt α) (κ : Cfg α β) (c : Cid) (op : Op α β) (ct : Nat) (st : World α) (x : Ret α β)
    (et : Nat) (fin : World α) (d : List (Ev α)) : Prop where
  out : op.Outcome c st fin d x
  lt : ct < et
  data : dataOf c κ.w.trace = d
  dataFin : dataOf c fin.trace = d
  dataStart : dataOf c st.trace = []
  invStart : Inv σ₀ st
  invFin : Inv σ₀ fin
  ev1 : Evolves st fin
  ev2 : Evolves fin κ.w
  maxCap : fin.mem.maxCap = st.mem.maxCap
  noLock : ∀ i, fin.holder i ≠ some c
  noUnpub : ∀ i, i < fin.spec.len → fin.spec.owner i = c → (fin.spec.val i).isSome

theorem CfgInv.returned (h : CfgInv σ₀ κ) {c : Cid} {op : Op α β} {ct : Nat} {st : World α} {x : Ret α β}
    {et : Nat} {fin : World α} (hc : κ.calls c = some ⟨op, ct, st, .done x et fin⟩) :
    ∃ d, RetInfo σ₀ κ c op ct st x et fin d := by
  obtain ⟨hlt, hI, ⟨d, hL, ho⟩, he⟩ := h.status c _ hc
  have hs := h.start c _ hc
  refine ⟨d, ho, hlt, ?_, hL.data, hs.loc.data, hs.inv, hI, hL.ev, he.ev, hL.maxCap, ?_, ?_⟩
  · rw [he.loc.data, hL.data]
  · intro i hi; exact (hL.locks i).1 hi
  · intro i h1 h2
    rcases hv : fin.spec.val i with _ | v
    · exact ((hL.unpub i).1 ⟨h1, h2, hv⟩).elim
    · rfl

/-- Everything known about a call that panicked. -/
structure PanInfo (σ₀ : SpecSt α) (κ : Cfg α β) (c : Cid) (op : Op α β) (ct : Nat) (st : World α) (k : PanicKind)
    (et : Nat) (fin : World α) (U : Nat → Prop) (d : List (Ev α)) : Prop where
  out : op.Failure c st fin U d k
  lt : ct < et
  data : dataOf c κ.w.trace = d
  dataFin : dataOf c fin.trace = d
  dataStart : dataOf c st.trace = []
  invStart : Inv σ₀ st
  invFin : Inv σ₀ fin
  ev1 : Evolves st fin
  ev2 : Evolves fin κ.w
  maxCap : fin.mem.maxCap = st.mem.maxCap
  noLock : ∀ i, fin.holder i ≠ some c
  hole : ∀ i, U i → κ.w.spec.val i = none ∧ i < κ.w.spec.len ∧ κ.w.mem.val i = none

theorem CfgInv.panicked (h : CfgInv σ₀ κ) {c : Cid} {op : Op α β} {ct : Nat} {st : World α} {k : PanicKind}
    {et : Nat} {fin : World α} (hc : κ.calls c = some ⟨op, ct, st, .panicked k et fin⟩) :
    ∃ U d, PanInfo σ₀ κ c op ct st k et fin U d := by
  obtain ⟨hlt, hI, ⟨U, d, hL, ho⟩, he⟩ := h.status c _ hc
  have hs := h.start c _ hc
  refine ⟨U, d, ho, hlt, ?_, hL.data, hs.loc.data, hs.inv, hI, hL.ev, he.ev, hL.maxCap, ?_, ?_⟩
  · rw [he.loc.data, hL.data]
  · intro i hi; exact (hL.locks i).1 hi
  · intro i hU
    have h1 := (hL.unpub i).2 hU
    have h2 := (he.loc.unpub i).2 h1
    exact ⟨h2.2.2, h2.1, he.loc.clean i h1⟩

/-- The data events of a call follow its protocol. -/
theorem CfgInv.hist (h : CfgInv σ₀ κ) {c : Cid} {r : Rec α β} (hc : κ.calls c = some r) {d1 d2 : List (Ev α)}
    {e : Ev α} (hd : dataOf c κ.w.trace = d1 ++ e :: d2) : r.op.Allows d1 e := by
  obtain ⟨t1, t2, ht, h1, -, h3, h4⟩ := dataOf_split hd
  obtain ⟨r', hr', ho⟩ := h.events t1 e t2 ht
  rw [h4, hc] at hr'
  simp only [Option.some.injEq] at hr'
  subst hr'
  rcases ho with ho | ho
  · rw [h3] at ho; cases ho
  · rw [h4, h1] at ho; exact ho

/-- The trace up to the end of a call is a prefix of the trace at the start of any later call. -/
theorem CfgInv.before (h : CfgInv σ₀ κ) {c1 c2 : Cid} {r1 r2 : Rec α β} (h1 : κ.calls c1 = some r1)
    (h2 : κ.calls c2 = some r2) (hb : r1.Before r2) :
    ∃ t fin, r1.status.ended = some (t, fin) ∧ Evolves fin r2.start := by
  obtain ⟨t, fin, he, hlt⟩ := hb
  exact ⟨t, fin, he, h.order t fin r2.callT r2.start ⟨c1, r1, h1, .inr he⟩ ⟨c2, r2, h2, .inl ⟨rfl, rfl⟩⟩ hlt⟩

/-- Data events of an ended call lie before its end. -/
theorem CfgInv.dataEnd (h : CfgInv σ₀ κ) {c : Cid} {r : Rec α β} (hc : κ.calls c = some r) {t : Nat}
    {fin : World α} (he : r.status.ended = some (t, fin)) :
    dataOf c κ.w.trace = dataOf c fin.trace ∧ Evolves fin κ.w ∧ Inv σ₀ fin ∧ Evolves r.start fin ∧ r.callT < t := by
  rcases r with ⟨op, ct, st, s⟩
  cases s with
  | running p => simp [Status.ended] at he
  | done x t' f' =>
    simp only [Status.ended, Option.some.injEq, Prod.mk.injEq] at he
    obtain ⟨rfl, rfl⟩ := he
    obtain ⟨d, hr⟩ := h.returned hc
    exact ⟨by rw [hr.data, hr.dataFin], hr.ev2, hr.invFin, hr.ev1, hr.lt⟩
  | panicked x t' f' =>
    simp only [Status.ended, Option.some.injEq, Prod.mk.injEq] at he
    obtain ⟨rfl, rfl⟩ := he
    obtain ⟨U, d, hr⟩ := h.panicked hc
    exact ⟨by rw [hr.data, hr.dataFin], hr.ev2, hr.invFin, hr.ev1, hr.lt⟩

/-- Data events of two non-overlapping calls are ordered in the trace. -/
theorem CfgInv.before_split (h : CfgInv σ₀ κ) {c1 c2 : Cid} {r1 r2 : Rec α β} (h1 : κ.calls c1 = some r1)
    (h2 : κ.calls c2 = some r2) (hb : r1.Before r2) {e1 e2 : Ev α} (he1 : e1 ∈ dataOf c1 κ.w.trace)
    (he2 : e2 ∈ dataOf c2 κ.w.trace) : ∃ t1 t2 t3, κ.w.trace = t1 ++ e1 :: (t2 ++ e2 :: t3) := by
  obtain ⟨t, fin, hen, hev⟩ := h.before h1 h2 hb
  have hd := h.dataEnd h1 hen
  rw [hd.1] at he1
  have hs := (h.snap r2.callT r2.start ⟨c2, r2, h2, .inl ⟨rfl, rfl⟩⟩).2
  obtain ⟨u, hu⟩ := hs.trace
  have he2' : e2 ∈ u := by
    rw [← hu, dataOf_append, (h.start c2 r2 h2).loc.data, List.nil_append] at he2
    exact (mem_dataOf.1 he2).1
  have he1' : e1 ∈ r2.start.trace := hev.trace.subset (mem_dataOf.1 he1).1
  obtain ⟨t1, t2, ht⟩ := List.append_of_mem he1'
  obtain ⟨t3, t4, rfl⟩ := List.append_of_mem he2'
  exact ⟨t1, t2 ++ t3, t4, by rw [← hu, ht]; simp⟩

theorem CfgInv.content_eq (h : CfgInv σ₀ κ) (i : Nat) : κ.content i = κ.w.spec.val i := h.inv.content_eq i

theorem Op.Allows.mayWrite {op : Op α β} {d : List (Ev α)} {e : Ev α} (h : op.Allows d e) {i : Nat}
    (hm : e.Modifies i) : op.MayWrite i := by
  cases e with
  | write c j o v =>
    simp only [Ev.Modifies] at hm
    subst hm
    cases op <;> simp only [Op.Allows] at h <;> simp only [Op.MayWrite] <;> grind
  | swap c j k =>
    simp only [Ev.Modifies] at hm
    cases op <;> simp only [Op.Allows] at h <;> simp only [Op.MayWrite] <;> grind
  | _ => simp [Ev.Modifies] at hm

/-- Events that modify a position come from calls that may do so. -/
theorem CfgInv.modifies (h : CfgInv σ₀ κ) {e : Ev α} (he : e ∈ κ.w.trace) {i : Nat} (hm : e.Modifies i) :
    ∃ r, κ.calls e.cid = some r ∧ r.op.MayWrite i := by
  obtain ⟨t1, t2, ht⟩ := List.append_of_mem he
  obtain ⟨r, hr, ho⟩ := h.events t1 e t2 ht
  refine ⟨r, hr, ?_⟩
  have ho' : r.op.Allows (dataOf e.cid t1) e := by
    rcases ho with ho | ho
    · cases e <;> simp [Ev.Modifies, Ev.isData] at hm ho
    · exact ho
  exact ho'.mayWrite hm

theorem CfgInv.noModifies (h : CfgInv σ₀ κ) {i : Nat} (hn : ∀ c op, κ.Called c op → ¬ op.MayWrite i) :
    ∀ e ∈ κ.w.trace, ¬ e.Modifies i := by
  intro e he hm
  obtain ⟨⟨op, ct, st, s⟩, hr, hw⟩ := h.modifies he hm
  exact hn _ op ⟨ct, st, s, hr⟩ hw

/-! ## Growth calls -/

/-- Data events of a growth call that returned. -/
theorem RetInfo.growth {c : Cid} {op : Op α β} {ct : Nat} {st : World α} {x : Ret α β} {et : Nat} {fin : World α}
    {d : List (Ev α)} (h : RetInfo σ₀ κ c op ct st x et fin d) {n : Nat} (hn : op.size = some n) :
    ∃ b vs, x = .nat b ∧ op.Stores b vs ∧ vs.length = n ∧ d = .reserve c b n :: pubs c b vs ∧ st.spec.len ≤ b := by
  have ho := h.out
  cases op <;> simp only [Op.size, Option.some.injEq, reduceCtorEq] at hn <;> subst hn
  case push v =>
    obtain ⟨i, hi, rfl, rfl⟩ := ho
    exact ⟨i, [v], rfl, rfl, rfl, by simp [pubs], hi⟩
  case pushForIdx f =>
    obtain ⟨i, v, hi, rfl, hf, rfl⟩ := ho
    exact ⟨i, [v], rfl, ⟨v, hf, rfl⟩, rfl, by simp [pubs], hi⟩
  case extend it =>
    obtain ⟨b, rfl, hb, vs, rest, hl, hit, rfl⟩ := ho
    exact ⟨b, vs, rfl, ⟨hl, ⟨rest, hit.symm⟩⟩, hl, rfl, hb⟩
  case extendN items n =>
    obtain ⟨b, rfl, hb, vs, rest, hl, hit, rfl⟩ := ho
    exact ⟨b, vs, rfl, ⟨hl, ⟨rest, hit.symm⟩⟩, hl, rfl, hb⟩
  case extendForIdx f n =>
    obtain ⟨b, it, rfl, hf, hh, hb, vs, rest, hl, hit, rfl⟩ := ho
    exact ⟨b, vs, rfl, ⟨it, hf, hl, ⟨rest, hit.symm⟩⟩, hl, rfl, hb⟩

theorem mem_pubs {c : Cid} {b : Nat} {vs : List α} {k : Nat} {v : α} (h : vs[k]? = some v) :
    Ev.publish c (b + k) v ∈ pubs c b vs := by
  induction vs generalizing b k with
  | nil => simp at h
  | cons x vs ih =>
    cases k with
    | zero => simp at h; simp [pubs, h]
    | succ k =>
      simp only [List.getElem?_cons_succ] at h
      have := ih (b := b + 1) h
      rw [show b + 1 + k = b + (k + 1) by omega] at this
      simp [pubs, this]

end calls

end Verif
