import Verif.Proof.Quiet
import Mathlib.Data.List.Perm.Subperm
import Mathlib.Data.List.Perm.Lattice
import Mathlib.Logic.Function.Iterate

/-!
# Moments of data events, chains of writes

Helper file (no property statements).
-/

namespace Verif

variable {α β : Type} {m : Mem α} {l : List α} {n : Nat} {κ : Nat → Cfg α β}

/-- Event `e` happens in step `t`. -/
def Happens (κ : Nat → Cfg α β) (t : Nat) (e : Ev α) : Prop := (κ (t + 1)).w.trace = (κ t).w.trace ++ [e]

/-- The moment of a data event of a call. -/
theorem Exec.data_time (h : Exec m l n κ) (hm : InitMem m l) {c : Cid} {d1 d2 : List (Ev α)} {e : Ev α}
    (hd : dataOf c (κ n).w.trace = d1 ++ e :: d2) :
    ∃ t, t < n ∧ dataOf c (κ t).w.trace = d1 ∧ Happens κ t e ∧ (κ n).During c t ∧ specOk (κ t).w.spec e ∧
      (κ (t + 1)).w.spec = specNext (κ t).w.spec e := by
  obtain ⟨t1, t2, ht, hd1, hd2, hdat, hcid⟩ := dataOf_split hd
  obtain ⟨t, k1, k2, k3, k4, -, -, -⟩ := h.event_time hm ht
  have hI := h.inv hm (by omega : t ≤ n)
  have hI' := h.inv hm (by omega : t + 1 ≤ n)
  refine ⟨t, k1, by rw [k2]; exact hd1, by rw [Happens, k3, k2], by rw [← hcid]; exact k4, ?_, ?_⟩
  · rw [hI.inv.spec_eq, k2]
    exact hI'.inv.legal t1 e [] k3
  · rw [hI'.inv.spec_eq, k3, specAt_snoc, hI.inv.spec_eq, k2]

theorem Happens.unique {e e' : Ev α} {t : Nat} (h1 : Happens κ t e) (h2 : Happens κ t e') : e = e' := by
  unfold Happens at h1 h2
  rw [h1] at h2
  have := List.append_cancel_left h2
  simpa using this

theorem Exec.trace_mono (h : Exec m l n κ) (hm : InitMem m l) {s t : Nat} (hst : s ≤ t) (ht : t ≤ n) :
    (κ s).w.trace.length ≤ (κ t).w.trace.length := (h.evolves hm hst ht).trace.length_le

/-- Steps that change the content perform an event. -/
theorem Exec.change (h : Exec m l n κ) (hm : InitMem m l) {t : Nat} (ht : t < n) {i : Nat}
    (hne : (κ t).content i ≠ (κ (t + 1)).content i) :
    ∃ e d1 d2, Happens κ t e ∧ (κ n).During e.cid t ∧ dataOf e.cid (κ n).w.trace = d1 ++ e :: d2 ∧
      dataOf e.cid (κ t).w.trace = d1 ∧ e.isData = true ∧ specOk (κ t).w.spec e ∧
      (κ (t + 1)).w.spec = specNext (κ t).w.spec e ∧ (e.Modifies i ∨ ∃ c v, e = .publish c i v) := by
  have hI := h.inv hm (by omega : t ≤ n)
  have hI' := h.inv hm (by omega : t + 1 ≤ n)
  obtain ⟨u, hu⟩ := (h.evolves hm (by omega : t ≤ t + 1) (by omega)).trace
  have hlen : u.length ≤ 1 := by
    rcases (h.next t ht).world with hw | ⟨c, r, a, again, k, b, -, -, he⟩ | ⟨-, hw, -⟩
    · rw [hw] at hu
      have := congrArg List.length hu
      simp at this; rw [this]; simp
    · rw [exec_trace he] at hu
      rw [List.append_cancel_left hu]
      exact events_length
    · rw [hw] at hu
      have := congrArg List.length hu
      simp at this; rw [this]; simp
  rcases u with _ | ⟨e, _ | ⟨e', u⟩⟩
  · exfalso
    rw [List.append_nil] at hu
    apply hne
    rw [hI.content_eq, hI'.content_eq, hI.inv.spec_eq, hI'.inv.spec_eq, hu]
  · have hhap : Happens κ t e := hu.symm
    have hok : specOk (κ t).w.spec e := by
      rw [hI.inv.spec_eq]; exact hI'.inv.legal _ e [] hu.symm
    have hnx : (κ (t + 1)).w.spec = specNext (κ t).w.spec e := by
      rw [hI'.inv.spec_eq, ← hu, specAt_snoc, ← hI.inv.spec_eq]
    have hmod : e.Modifies i ∨ ∃ c v, e = .publish c i v := by
      by_contra hcon
      simp only [not_or, not_exists] at hcon
      apply hne
      rw [hI.content_eq, hI'.content_eq, hnx]
      rcases hv : (κ t).w.spec.val i with _ | v
      · rw [specNext_none hok hv hcon.2]
      · rw [specNext_keep hok hv hcon.1]
    have hdat : e.isData = true := by
      rcases hmod with hmod | ⟨c, v, rfl⟩
      · cases e <;> simp [Ev.Modifies] at hmod <;> rfl
      · rfl
    obtain ⟨u', hu'⟩ := (h.evolves hm (by omega : t + 1 ≤ n) (Nat.le_refl n)).trace
    have hfull : (κ n).w.trace = (κ t).w.trace ++ e :: u' := by rw [← hu', ← hu]; simp
    obtain ⟨s, k1, k2, k3, k4, -⟩ := h.event_time hm hfull
    have hst : s = t := by
      rcases Nat.lt_trichotomy s t with hlt | heq | hgt
      · have := h.trace_mono hm (by omega : s + 1 ≤ t) (by omega)
        rw [k3] at this; simp at this; omega
      · exact heq
      · have := h.trace_mono hm (by omega : t + 1 ≤ s) (by omega)
        rw [k2, ← hu] at this; simp at this; omega
    subst hst
    refine ⟨e, dataOf e.cid (κ s).w.trace, dataOf e.cid u', hhap, k4, ?_, rfl, hdat, hok, hnx, hmod⟩
    rw [hfull, dataOf_append, dataOf_cons_data (e := e) (c := e.cid) hdat rfl]
  · simp at hlen

/-! ## Chains of writes -/

/-- The write an event makes to position `i`: call, new value, old value. -/
def wr (i : Nat) : Ev α → Option (Cid × α × α)
  | .write c j old new => if j = i then some (c, new, old) else none
  | _ => none

@[simp] theorem wr_reserve (i : Nat) (c : Cid) (b n : Nat) : wr i (.reserve c b n : Ev α) = none := rfl
@[simp] theorem wr_publish (i : Nat) (c : Cid) (j : Nat) (v : α) : wr i (.publish c j v) = none := rfl
@[simp] theorem wr_read (i : Nat) (c : Cid) (j : Nat) (v : α) : wr i (.read c j v) = none := rfl
@[simp] theorem wr_write (i : Nat) (c : Cid) (j : Nat) (o v : α) :
    wr i (.write c j o v) = if j = i then some (c, v, o) else none := rfl
@[simp] theorem wr_swap (i : Nat) (c : Cid) (j k : Nat) : wr i (.swap c j k : Ev α) = none := rfl
@[simp] theorem wr_seen (i : Nat) (c : Cid) (j : Nat) : wr i (.seen c j : Ev α) = none := rfl
@[simp] theorem wr_busy (i : Nat) (c : Cid) (j : Nat) (d : Cid) : wr i (.busy c j d : Ev α) = none := rfl
@[simp] theorem wr_hole (i : Nat) (c : Cid) (j : Nat) : wr i (.hole c j : Ev α) = none := rfl

/-- Each write finds what the previous one left. -/
inductive Chain : α → List (Cid × α × α) → α → Prop where
  | nil (v : α) : Chain v [] v
  | cons {c : Cid} {old new v : α} {ws : List (Cid × α × α)} : Chain new ws v → Chain old ((c, new, old) :: ws) v

theorem Legal.chain {σ : SpecSt α} {t : List (Ev α)} (h : Legal σ t) {i : Nat} {v : α} (hv : σ.val i = some v)
    (hs : ∀ c j k, Ev.swap c j k ∈ t → i ≠ j ∧ i ≠ k) :
    ∃ v', (specAt σ t).val i = some v' ∧ Chain v (t.filterMap (wr i)) v' := by
  induction t generalizing σ v with
  | nil => exact ⟨v, hv, .nil v⟩
  | cons e t ih =>
    have hok : specOk σ e := h [] e t rfl
    have hleg : Legal (specNext σ e) t := Legal.suffix (t := [e]) h
    have hs' : ∀ c j k, Ev.swap c j k ∈ t → i ≠ j ∧ i ≠ k := fun c j k hk => hs c j k (List.mem_cons_of_mem _ hk)
    by_cases hmod : e.Modifies i
    · cases e <;> simp only [Ev.Modifies] at hmod
      case write c j old new =>
        subst hmod
        simp only [specOk] at hok
        rw [hv] at hok
        simp only [Option.some.injEq] at hok
        subst hok
        obtain ⟨v', h1, h2⟩ := ih (v := new) hleg (by simp [specNext]) hs'
        refine ⟨v', h1, ?_⟩
        simp only [List.filterMap_cons, wr_write, if_true]
        exact .cons h2
      case swap c j k =>
        have := hs c j k (by simp)
        grind
    · obtain ⟨v', h1, h2⟩ := ih hleg (specNext_keep hok hv hmod) hs'
      refine ⟨v', h1, ?_⟩
      have : wr i e = none := by
        cases e <;> simp [Ev.Modifies] at hmod ⊢
        grind
      rw [List.filterMap_cons, this]
      exact h2

theorem Chain.iterate {v v' : α} {ws : List (Cid × α × α)} (h : Chain v ws v') {g : α → α}
    (hg : ∀ w ∈ ws, w.2.1 = g w.2.2) : v' = g^[ws.length] v := by
  induction h with
  | nil => rfl
  | @cons c old new v ws h ih =>
    rw [ih fun w hw => hg w (List.mem_cons_of_mem _ hw)]
    have : new = g old := hg (c, new, old) (by simp)
    rw [List.length_cons, Function.iterate_succ_apply, ← this]

theorem Chain.perm {v v' : α} {ws : List (Cid × α × α)} (h : Chain v ws v') :
    (v :: ws.map fun w => w.2.1).Perm (v' :: ws.map fun w => w.2.2) := by
  induction h with
  | nil => exact .refl _
  | @cons c old new v ws h ih =>
    simp only [List.map_cons]
    exact (List.Perm.cons old ih).trans (List.Perm.swap v old _)

theorem mem_wr {t : List (Ev α)} {c : Cid} {i : Nat} {o v : α} :
    (c, v, o) ∈ t.filterMap (wr i) ↔ Ev.write c i o v ∈ t := by
  simp only [List.mem_filterMap]
  constructor
  · rintro ⟨e, he, hr⟩
    cases e <;> simp at hr
    obtain ⟨rfl, rfl, rfl, rfl⟩ := hr
    exact he
  · exact fun h => ⟨_, h, by simp⟩

theorem count_wr (c : Cid) (i : Nat) (t : List (Ev α)) :
    ((t.filterMap (wr i)).map fun r => r.1).count c = ((dataOf c t).filterMap (wr i)).length := by
  induction t with
  | nil => rfl
  | cons e t ih =>
    cases e with
    | write c' j o v =>
      by_cases hc : c' = c
      · subst hc
        rw [dataOf_cons_data (e := .write c' j o v) (c := c') rfl rfl]
        by_cases hj : j = i
        · simp [hj, ih]
        · simp [hj, ih]
      · have : dataOf c (Ev.write c' j o v :: t) = dataOf c t := by simp [dataOf, Ev.cid, hc]
        rw [this, ← ih]
        by_cases hj : j = i
        · simp [hj, hc]
        · simp [hj]
    | _ =>
      simp only [List.filterMap_cons, wr_reserve, wr_publish, wr_read, wr_swap, wr_seen, wr_busy, wr_hole, ih]
      rw [show ∀ (e : Ev α) t, dataOf c (e :: t) = dataOf c [e] ++ dataOf c t from
        fun e t => dataOf_append c [e] t, List.filterMap_append]
      simp only [dataOf, List.filter_cons, List.filter_nil]
      split <;> simp

/-- All writes to a position, given that the calls that may write to it are known and write once each. -/
theorem Exec.writes_perm (h : Exec m l n κ) (hm : InitMem m l) {s : Nat} (hs : s ≤ n) {i : Nat} {v0 : α}
    (hv : (κ s).content i = some v0) (h0 : ∀ c op, (κ s).Called c op → ¬ op.MayWrite i)
    {ws : List (Cid × α × α)} (hnd : (ws.map fun w => w.1).Nodup)
    (hw : ∀ w ∈ ws, (dataOf w.1 (κ n).w.trace).filterMap (wr i) = [w])
    (hall : ∀ c op, (κ n).Called c op → op.MayWrite i → c ∈ ws.map fun w => w.1)
    (hns : ∀ c j k, Ev.swap c j k ∈ (κ n).w.trace → i ≠ j ∧ i ≠ k) :
    ∃ v ws', (κ n).content i = some v ∧ Chain v0 ws' v ∧ ws'.Perm ws := by
  have hI := h.inv hm (Nat.le_refl n)
  have hIs := h.inv hm hs
  obtain ⟨u, hu⟩ := (h.evolves hm hs (Nat.le_refl n)).trace
  have hleg := hI.inv.legal
  rw [← hu] at hleg
  rw [hIs.content_eq, hIs.inv.spec_eq] at hv
  obtain ⟨v, h1, h2⟩ := hleg.suffix.chain hv (fun c j k hk => hns c j k (by rw [← hu]; exact List.mem_append_right _ hk))
  refine ⟨v, _, ?_, h2, ?_⟩
  · rw [hI.content_eq, hI.inv.spec_eq, ← hu, specAt_append, h1]
  · have hpre : (κ s).w.trace.filterMap (wr i) = [] := by
      rw [List.filterMap_eq_nil_iff]
      intro e he
      have := hIs.noModifies h0 e he
      cases e <;> simp [Ev.Modifies] at this ⊢
      grind
    have hfull : (κ n).w.trace.filterMap (wr i) = u.filterMap (wr i) := by
      rw [← hu, List.filterMap_append, hpre, List.nil_append]
    rw [← hfull]
    have hmem : ∀ w, w ∈ (κ n).w.trace.filterMap (wr i) → w ∈ ws := by
      rintro ⟨c, v, o⟩ hw'
      have hev := mem_wr.1 hw'
      obtain ⟨⟨op, ct, st, ss⟩, hr, hmw⟩ := hI.modifies hev (i := i) rfl
      have := hall c op ⟨ct, st, ss, hr⟩ hmw
      rw [List.mem_map] at this
      obtain ⟨w, hww, rfl⟩ := this
      have h3 := hw w hww
      have h4 : (w.1, v, o) ∈ (dataOf w.1 (κ n).w.trace).filterMap (wr i) :=
        mem_wr.2 (mem_dataOf.2 ⟨hev, rfl, rfl⟩)
      rw [h3, List.mem_singleton] at h4
      rw [h4]; exact hww
    have hnd1 : ((κ n).w.trace.filterMap (wr i)).Nodup := by
      apply List.Nodup.of_map (fun w : Cid × α × α => w.1)
      rw [List.nodup_iff_count_le_one]
      intro c
      rw [count_wr]
      by_cases hc : c ∈ ws.map fun w => w.1
      · rw [List.mem_map] at hc
        obtain ⟨w, hww, rfl⟩ := hc
        rw [hw w hww]; simp
      · have : (dataOf c (κ n).w.trace).filterMap (wr i) = [] := by
          rw [List.filterMap_eq_nil_iff]
          intro e he
          by_contra hne
          obtain ⟨⟨c', v', o'⟩, hx⟩ := Option.ne_none_iff_exists'.1 hne
          have he' := mem_dataOf.1 he
          have hmod : e.Modifies i := by
            cases e <;> simp at hx
            simp [Ev.Modifies, hx.1]
          obtain ⟨⟨op, ct, st, ss⟩, hr, hmw⟩ := hI.modifies he'.1 hmod
          rw [he'.2.2] at hr
          exact hc (hall c op ⟨ct, st, ss, hr⟩ hmw)
        rw [this]; simp
    rw [List.perm_ext_iff_of_nodup hnd1 (List.Nodup.of_map _ hnd)]
    intro w
    refine ⟨hmem w, fun hww => ?_⟩
    have h3 := hw w hww
    have : w ∈ (dataOf w.1 (κ n).w.trace).filterMap (wr i) := by rw [h3]; simp
    obtain ⟨c, v, o⟩ := w
    exact mem_wr.2 (mem_dataOf.1 (mem_wr.1 this)).1

end Verif
