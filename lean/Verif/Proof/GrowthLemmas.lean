import Verif.Proof.Timeline
import Mathlib.Data.List.Nodup

/-!
# Growth calls: from traces to results

Helper file (no property statements).
-/

namespace Verif

variable {α β : Type} {σ₀ : SpecSt α} {κ : Cfg α β}

/-- What a growth call that returned has done. -/
theorem CfgInv.retGrowth (h : CfgInv σ₀ κ) {c : Cid} {op : Op α β} {x : Ret α β} {n : Nat}
    (hr : κ.Returned c op x) (hn : op.size = some n) :
    ∃ b vs, x = .nat b ∧ op.Stores b vs ∧ vs.length = n ∧ dataOf c κ.w.trace = .reserve c b n :: pubs c b vs := by
  obtain ⟨ct, st, et, fin, hc⟩ := hr
  obtain ⟨d, hd⟩ := h.returned hc
  obtain ⟨b, vs, h1, h2, h3, h4, -⟩ := hd.growth hn
  exact ⟨b, vs, h1, h2, h3, by rw [hd.data, h4]⟩

theorem CfgInv.retReserve (h : CfgInv σ₀ κ) {c : Cid} {op : Op α β} {b n : Nat}
    (hr : κ.Returned c op (.nat b)) (hn : op.size = some n) : Ev.reserve c b n ∈ κ.w.trace := by
  obtain ⟨b', vs, h1, -, -, h4⟩ := h.retGrowth hr hn
  cases h1
  have : Ev.reserve c b n ∈ dataOf c κ.w.trace := by rw [h4]; simp
  exact (mem_dataOf.1 this).1

theorem CfgInv.retPublish (h : CfgInv σ₀ κ) {c : Cid} {op : Op α β} {b n : Nat}
    (hr : κ.Returned c op (.nat b)) (hn : op.size = some n) :
    ∃ vs, op.Stores b vs ∧ vs.length = n ∧ ∀ k v, vs[k]? = some v → Ev.publish c (b + k) v ∈ κ.w.trace := by
  obtain ⟨b', vs, h1, h2, h3, h4⟩ := h.retGrowth hr hn
  cases h1
  refine ⟨vs, h2, h3, fun k v hk => ?_⟩
  have : Ev.publish c (b + k) v ∈ dataOf c κ.w.trace := by
    rw [h4]; exact List.mem_cons_of_mem _ (mem_pubs hk)
  exact (mem_dataOf.1 this).1

/-- Only growth calls reserve, and they reserve their size. -/
theorem CfgInv.reserve_call (h : CfgInv σ₀ κ) {c : Cid} {b n : Nat} (he : Ev.reserve c b n ∈ κ.w.trace) :
    ∃ op, κ.Called c op ∧ op.size = some n := by
  obtain ⟨t1, t2, ht⟩ := List.append_of_mem he
  obtain ⟨⟨op, ct, st, s⟩, hr, ho⟩ := h.events t1 _ t2 ht
  refine ⟨op, ⟨ct, st, s, hr⟩, ?_⟩
  rcases ho with ho | ho
  · simp [Ev.isData] at ho
  · cases op <;> simp only [Op.Allows] at ho <;> simp only [Op.size] <;> grind

/-- Only growth calls publish. -/
theorem CfgInv.publish_call (h : CfgInv σ₀ κ) {c : Cid} {i : Nat} {v : α} (he : Ev.publish c i v ∈ κ.w.trace) :
    ∃ op n, κ.Called c op ∧ op.size = some n := by
  obtain ⟨t1, t2, ht⟩ := List.append_of_mem he
  obtain ⟨⟨op, ct, st, s⟩, hr, ho⟩ := h.events t1 _ t2 ht
  rcases ho with ho | ho
  · simp [Ev.isData] at ho
  · cases op <;> simp only [Op.Allows] at ho <;> exact ⟨_, _, ⟨ct, st, s, hr⟩, rfl⟩

/-- Data events of a call happen after its invocation. -/
theorem CfgInv.start_prefix (h : CfgInv σ₀ κ) {r : Rec α β} {t1 t2 : List (Ev α)} {e : Ev α}
    (hc : κ.calls e.cid = some r) (he : e.isData = true) (ht : κ.w.trace = t1 ++ e :: t2) :
    r.start.trace <+: t1 := by
  obtain ⟨u, hu⟩ := (h.snap r.callT r.start ⟨e.cid, _, hc, .inl ⟨rfl, rfl⟩⟩).2.trace
  rw [ht] at hu
  rcases List.append_eq_append_iff.1 hu with ⟨as, h5, h6⟩ | ⟨bs, h5, h6⟩
  · exact ⟨as, h5.symm⟩
  · rcases bs with _ | ⟨e', bs⟩
    · exact ⟨[], by simpa using h5⟩
    · simp only [List.cons_append, List.cons.injEq] at h6
      have hin : e ∈ dataOf e.cid r.start.trace := by
        refine mem_dataOf.2 ⟨?_, he, rfl⟩
        rw [h5, ← h6.1]; simp
      rw [(h.start _ r hc).loc.data] at hin
      cases hin

/-! ## The order of the reservations -/

/-- The reservation an event makes. -/
def resv : Ev α → Option (Cid × Nat × Nat)
  | .reserve c b n => some (c, b, n)
  | _ => none

@[simp] theorem resv_reserve (c : Cid) (b n : Nat) : resv (.reserve c b n : Ev α) = some (c, b, n) := rfl
@[simp] theorem resv_publish (c : Cid) (i : Nat) (v : α) : resv (.publish c i v) = none := rfl
@[simp] theorem resv_read (c : Cid) (i : Nat) (v : α) : resv (.read c i v) = none := rfl
@[simp] theorem resv_write (c : Cid) (i : Nat) (o v : α) : resv (.write c i o v) = none := rfl
@[simp] theorem resv_swap (c : Cid) (i j : Nat) : resv (.swap c i j : Ev α) = none := rfl
@[simp] theorem resv_seen (c : Cid) (i : Nat) : resv (.seen c i : Ev α) = none := rfl
@[simp] theorem resv_busy (c : Cid) (i : Nat) (d : Cid) : resv (.busy c i d : Ev α) = none := rfl
@[simp] theorem resv_hole (c : Cid) (i : Nat) : resv (.hole c i : Ev α) = none := rfl

theorem mem_resv {t : List (Ev α)} {c : Cid} {b n : Nat} :
    (c, b, n) ∈ t.filterMap resv ↔ Ev.reserve c b n ∈ t := by
  simp only [List.mem_filterMap]
  constructor
  · rintro ⟨e, he, hr⟩
    cases e <;> simp at hr
    obtain ⟨rfl, rfl, rfl⟩ := hr
    exact he
  · exact fun h => ⟨_, h, rfl⟩

theorem Legal.len_eq {l : List α} {t : List (Ev α)} (h : Legal (.ofList l) t) :
    (specAt (.ofList l) t).len = l.length + ((t.filterMap resv).map fun r => r.2.2).sum := by
  induction t using List.reverseRecOn with
  | nil => simp [specAt, SpecSt.ofList]
  | append_singleton t e ih =>
    have ih := ih h.prefix
    rw [specAt_snoc]
    cases e <;> simp [specNext, ih, List.filterMap_append, List.filterMap_cons]
    omega

theorem Legal.resv_eq {l : List α} {t : List (Ev α)} (h : Legal (.ofList l) t) {p q : List (Cid × Nat × Nat)}
    {c : Cid} {b n : Nat} (he : t.filterMap resv = p ++ (c, b, n) :: q) :
    b = l.length + (p.map fun r => r.2.2).sum := by
  rw [List.filterMap_eq_append_iff] at he
  obtain ⟨t1, t2, rfl, h1, h2⟩ := he
  rw [List.filterMap_eq_cons_iff] at h2
  obtain ⟨t3, e, t4, rfl, h3, h4, h5⟩ := h2
  cases e <;> simp at h4
  obtain ⟨rfl, rfl, rfl⟩ := h4
  rename_i c b n
  have hok := h (t1 ++ t3) (.reserve c b n) t4 (by simp)
  simp only [specOk] at hok
  have hp : Legal (.ofList l) (t1 ++ t3) := by
    rw [← List.append_assoc] at h; exact h.prefix
  have hl := hp.len_eq
  have h3' : t3.filterMap resv = [] := by
    rw [List.filterMap_eq_nil_iff]; exact h3
  rw [List.filterMap_append, h1, h3', List.append_nil] at hl
  omega

theorem count_resv (c : Cid) (t : List (Ev α)) :
    ((t.filterMap resv).map fun r => r.1).count c =
      ((dataOf c t).filterMap resv).length := by
  induction t with
  | nil => rfl
  | cons e t ih =>
    cases e with
    | reserve c' b n =>
      by_cases hc : c' = c
      · subst hc
        rw [dataOf_cons_data (e := Ev.reserve c' b n) (c := c') rfl rfl]
        simp [ih]
      · have : dataOf c (Ev.reserve c' b n :: t) = dataOf c t := by simp [dataOf, Ev.cid, hc]
        rw [this]
        simp [ih, hc]
    | _ =>
      simp only [List.filterMap_cons, resv_publish, resv_read, resv_write, resv_swap, resv_seen, resv_busy, resv_hole,
        ih]
      rw [show ∀ (e : Ev α) t, dataOf c (e :: t) = dataOf c [e] ++ dataOf c t from
        fun e t => dataOf_append c [e] t, List.filterMap_append]
      simp only [dataOf, List.filter_cons, List.filter_nil]
      split <;> simp

theorem pubs_resv (c : Cid) (b : Nat) (vs : List α) : (pubs c b vs).filterMap resv = [] := by
  induction vs generalizing b with
  | nil => rfl
  | cons v vs ih => simp only [pubs, List.filterMap_cons, resv_publish, ih]

theorem getElem?_flatMap_split {γ δ : Type} (f : γ → List δ) (p q : List γ) (x : γ) (k : Nat)
    (hk : k < (f x).length) : ((p ++ x :: q).flatMap f)[(p.flatMap f).length + k]? = (f x)[k]? := by
  rw [List.flatMap_append, List.getElem?_append_right (by omega), Nat.add_sub_cancel_left,
    List.flatMap_cons, List.getElem?_append_left hk]

theorem length_flatMap_of {γ δ : Type} (f : γ → List δ) (g : γ → Nat) (p : List γ)
    (h : ∀ x ∈ p, (f x).length = g x) : (p.flatMap f).length = (p.map g).sum := by
  induction p with
  | nil => rfl
  | cons x p ih =>
    simp only [List.flatMap_cons, List.length_append, List.map_cons, List.sum_cons]
    rw [h x (by simp), ih fun y hy => h y (by simp [hy])]

end Verif
