import Verif.Model.Wrap
import Verif.Spec.Requested
import Verif.Proof.Timeline
import Verif.Proof.Trace

/-! # Machine integers: helper lemmas -/

namespace Verif

variable {α β : Type} {m : Mem α} {l : List α}

/-- Sizes reserved by the events of a trace. -/
def sizes : List (Ev α) → List (Cid × Nat)
  | [] => []
  | .reserve c _ n :: t => (c, n) :: sizes t
  | _ :: t => sizes t

theorem sizes_append : ∀ (t u : List (Ev α)), sizes (t ++ u) = sizes t ++ sizes u
  | [], u => rfl
  | e :: t, u => by cases e <;> simp [sizes, sizes_append t u]

theorem mem_sizes : ∀ {t : List (Ev α)} {p : Cid × Nat}, p ∈ sizes t → ∃ b, Ev.reserve p.1 b p.2 ∈ t
  | [], p, h => by simp [sizes] at h
  | e :: t, p, h => by
    have ih : p ∈ sizes t → ∃ b, Ev.reserve p.1 b p.2 ∈ e :: t := fun h =>
      (mem_sizes h).imp fun _ h => List.mem_cons_of_mem _ h
    cases e with
    | reserve c b n =>
      rcases List.mem_cons.1 h with rfl | h
      · exact ⟨b, by simp⟩
      · exact ih h
    | _ => exact ih h

theorem specAt_sizes (σ : SpecSt α) : ∀ t : List (Ev α), (specAt σ t).len = σ.len + ((sizes t).map Prod.snd).sum := by
  intro t
  induction t generalizing σ with
  | nil => simp [sizes, specAt]
  | cons e t ih =>
    have h1 : specAt σ (e :: t) = specAt (specNext σ e) t := rfl
    rw [h1, ih]
    cases e <;> simp [specNext, sizes] <;> omega

theorem sum_range_le (f : Nat → Nat) : ∀ (N : Nat) (L : List Nat), L.Nodup → (∀ c ∈ L, c < N) →
    (L.map f).sum ≤ ((List.range N).map f).sum
  | 0, L, _, h => by
    cases L with
    | nil => simp
    | cons a L => exact absurd (h a (by simp)) (by omega)
  | N + 1, L, hd, h => by
    rw [List.range_succ, List.map_append, List.sum_append]
    by_cases hN : N ∈ L
    · have hp : (L.map f).Perm ((N :: L.erase N).map f) := (List.perm_cons_erase hN).map f
      rw [hp.sum_nat]
      have := sum_range_le f N (L.erase N) (hd.erase N) (fun c hc => by
        have h1 := h c (List.mem_of_mem_erase hc)
        have h2 : c ≠ N := fun e => by subst e; exact (hd.mem_erase_iff.1 hc).1 rfl
        omega)
      simp
      omega
    · have := sum_range_le f N L hd (fun c hc => by
        have h1 := h c hc
        have h2 : c ≠ N := fun e => hN (e ▸ hc)
        omega)
      simp
      omega

theorem allows_reserve {op : Op α β} {d : List (Ev α)} {c : Cid} {b n : Nat} (h : op.Allows d (.reserve c b n)) :
    d = [] ∧ op.size = some n := by
  cases op <;> simp only [Op.Allows] at h <;> simp only [Op.size] <;> grind

theorem CfgInv.sizes_nodup {σ₀ : SpecSt α} {κ : Cfg α β} (h : CfgInv σ₀ κ) : ((sizes κ.w.trace).map Prod.fst).Nodup := by
  have key : ∀ u v : List (Ev α), κ.w.trace = u ++ v → ((sizes u).map Prod.fst).Nodup := by
    intro u
    induction u using List.reverseRecOn with
    | nil => intro v _; simp [sizes]
    | append_singleton u e ih =>
      intro v hv
      have hn := ih (e :: v) (by rw [hv]; simp)
      rw [sizes_append, List.map_append, List.nodup_append]
      refine ⟨hn, ?_, ?_⟩
      · cases e <;> simp [sizes]
      · intro c hc c' hc' hcc
        subst hcc
        cases e with
        | reserve c1 b n =>
          simp [sizes] at hc'
          subst hc'
          obtain ⟨r, hr, ha⟩ := h.events u (.reserve c b n) v (by rw [hv]; simp)
          rcases ha with ha | ha
          · cases ha
          · have hd := (allows_reserve ha).1
            rw [List.mem_map] at hc
            obtain ⟨p, hp, rfl⟩ := hc
            obtain ⟨b', hb'⟩ := mem_sizes hp
            have : Ev.reserve p.1 b' p.2 ∈ dataOf p.1 u := mem_dataOf.2 ⟨hb', rfl, rfl⟩
            change dataOf p.1 u = [] at hd
            rw [hd] at this
            cases this
        | _ => simp [sizes] at hc'
  exact key κ.w.trace [] (by simp)

theorem CfgInv.reserved_le_requested {κ : Cfg α β} (h : CfgInv (.ofList l) κ) : κ.w.mem.reserved ≤ l.length + κ.requested := by
  rw [h.inv.len_eq, h.inv.spec_eq, specAt_sizes]
  show l.length + _ ≤ _
  refine Nat.add_le_add_left ?_ _
  have hs : (sizes κ.w.trace).map Prod.snd =
      ((sizes κ.w.trace).map Prod.fst).map fun c => ((κ.calls c).bind fun r => r.op.size).getD 0 := by
    rw [List.map_map]
    refine List.map_congr_left fun p hp => ?_
    obtain ⟨b, hb⟩ := mem_sizes hp
    obtain ⟨t1, t2, ht⟩ := List.append_of_mem hb
    obtain ⟨r, hr, ha⟩ := h.events t1 _ t2 ht
    rcases ha with ha | ha
    · cases ha
    · have hsz := (allows_reserve ha).2
      change κ.calls p.1 = some r at hr
      simp [hr, hsz]
  rw [hs]
  refine sum_range_le _ _ _ h.sizes_nodup fun c hc => ?_
  rw [List.mem_map] at hc
  obtain ⟨p, hp, rfl⟩ := hc
  obtain ⟨b, hb⟩ := mem_sizes hp
  obtain ⟨t1, t2, ht⟩ := List.append_of_mem hb
  obtain ⟨r, hr, -⟩ := h.events t1 _ t2 ht
  exact (h.next _ r hr).2

theorem requested_mono {κ κ' : Cfg α β} (h : Step κ κ') : κ.requested ≤ κ'.requested := by
  have key : ∀ (c : Cid) (r : Rec α β) (s : Status α β), κ.calls c = some r →
      (fun d => ((κ.setStatus c r s d).bind fun r => r.op.size).getD 0) =
        fun d => ((κ.calls d).bind fun r => r.op.size).getD 0 := by
    intro c r s hc
    funext d
    by_cases hd : d = c
    · subst hd; simp [Cfg.setStatus, hc]
    · simp [Cfg.setStatus, hd]
  cases h with
  | invoke op h hp =>
    unfold Cfg.requested
    rw [List.range_succ, List.map_append, List.sum_append]
    have : (List.range κ.next).map (fun c => ((upd κ.calls κ.next (some ⟨op, κ.clock, κ.w, .running op.prog⟩) c).bind
        fun r => r.op.size).getD 0) = (List.range κ.next).map fun c => ((κ.calls c).bind fun r => r.op.size).getD 0 := by
      refine List.map_congr_left fun c hc => ?_
      rw [upd_other _ _ (Nat.ne_of_lt (List.mem_range.1 hc))]
    rw [this]
    exact Nat.le_add_right _ _
  | act c r a again k w' b hc hr he => unfold Cfg.requested; simp only [key c r _ hc]; exact Nat.le_refl _
  | ub c r a again k hc hr he => exact Nat.le_refl _
  | ret c r x hc hr => unfold Cfg.requested; simp only [key c r _ hc]; exact Nat.le_refl _
  | panic c r k hc hr => unfold Cfg.requested; simp only [key c r _ hc]; exact Nat.le_refl _
  | reserveMax n h => exact Nat.le_refl _

theorem ExecW.exec {W n : Nat} {κ : Nat → Cfg α β} (h : ExecW W m l n κ) (hm : InitMem m l)
    (hb : l.length + (κ n).requested < W) : Exec m l n κ := by
  have hmono : ∀ t, t < n → (κ t).requested ≤ (κ (t + 1)).requested := by
    intro t ht
    obtain ⟨κ₁, h1, h2⟩ := h.next t ht
    have := requested_mono h1
    rw [h2]
    exact this
  have hle : ∀ k t, t + k = n → (κ t).requested ≤ (κ n).requested := by
    intro k
    induction k with
    | zero => intro t ht; rw [show t = n from ht]; exact Nat.le_refl _
    | succ k ih => intro t ht; exact Nat.le_trans (hmono t (by omega)) (ih (t + 1) (by omega))
  have key : ∀ t, t ≤ n → Exec m l t κ := by
    intro t
    induction t with
    | zero => exact fun _ => ⟨h.init, fun t ht => absurd ht (by omega)⟩
    | succ t ih =>
      intro ht
      have he := ih (by omega)
      refine ⟨h.init, fun s hs => ?_⟩
      rcases Nat.lt_or_ge s t with hlt | hge
      · exact he.next s hlt
      · have : s = t := by omega
        subst this
        obtain ⟨κ₁, h1, h2⟩ := h.next s (by omega)
        have hi := (he.inv hm (Nat.le_refl s)).step h1
        have hres := hi.reserved_le_requested
        have hq : κ₁.requested ≤ (κ n).requested := by
          have := hle (n - (s + 1)) (s + 1) (by omega)
          rw [h2] at this
          exact this
        have hw : κ₁.wrap W = κ₁ := by
          unfold Cfg.wrap
          rw [Nat.mod_eq_of_lt (by omega)]
        rw [h2, hw]
        exact h1
  exact key n (Nat.le_refl n)

end Verif
