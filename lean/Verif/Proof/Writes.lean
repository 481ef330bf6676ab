import Verif.Proof.Views

/-!
# Calls that write a range of positions

Helper file (no property statements).
-/

namespace Verif

variable {α β : Type} {m : Mem α} {l : List α} {n : Nat} {κ : Nat → Cfg α β}

theorem mem_writes {c : Cid} {e : Ev α} : ∀ {a : Nat} {ps : List (α × α)}, e ∈ writes c a ps →
    ∃ (j : Nat) (p : α × α), ps[j]? = some p ∧ e = .write c (a + j) p.1 p.2
  | a, [], h => by simp [writes] at h
  | a, p :: ps, h => by
    rw [writes, List.mem_cons] at h
    rcases h with rfl | h
    · exact ⟨0, p, rfl, rfl⟩
    · obtain ⟨j, q, h1, h2⟩ := mem_writes h
      exact ⟨j + 1, q, by simpa using h1, by rw [h2, show a + 1 + j = a + (j + 1) by omega]⟩

theorem writes_split {c : Cid} : ∀ {a : Nat} {ps : List (α × α)} {j : Nat} {p : α × α}, ps[j]? = some p →
    writes c a ps = writes c a (ps.take j) ++ .write c (a + j) p.1 p.2 :: writes c (a + j + 1) (ps.drop (j + 1))
  | a, [], j, p, h => by simp at h
  | a, q :: ps, 0, p, h => by
    simp only [List.getElem?_cons_zero, Option.some.injEq] at h
    subst h
    simp [writes]
  | a, q :: ps, j + 1, p, h => by
    have := writes_split (c := c) (a := a + 1) (ps := ps) (j := j) (p := p) (by simpa using h)
    rw [writes, this, List.take_succ_cons, writes, List.drop_succ_cons, show a + 1 + j = a + (j + 1) by omega]
    rfl

/-- A change of the content in a step of call `c` is an event of `c`. -/
theorem Exec.change_mine (h : Exec m l n κ) (hm : InitMem m l) {c : Cid} {t : Nat} (ht : t < n)
    (hmv : (κ t).Moves c (κ (t + 1))) {i : Nat} (hne : (κ t).content i ≠ (κ (t + 1)).content i) :
    ∃ e d1 d2, e.cid = c ∧ (κ n).During c t ∧ dataOf c (κ n).w.trace = d1 ++ e :: d2 ∧
      dataOf c (κ t).w.trace = d1 ∧ specOk (κ t).w.spec e ∧ (κ (t + 1)).w.spec = specNext (κ t).w.spec e ∧
      (e.Modifies i ∨ ∃ c v, e = .publish c i v) := by
  obtain ⟨e, d1, d2, h1, h2, h3, h4, h5, h6, h7, h8⟩ := h.change hm ht hne
  have hcid : e.cid = c := by
    obtain ⟨r, hr, ⟨a, again, k, w', b, k1, k2, k3⟩ | ⟨x, k1, k3⟩ | ⟨x, k1, k3⟩⟩ := hmv
    · unfold Happens at h1
      rw [k3] at h1
      simp only [exec_trace k2] at h1
      have := List.append_cancel_left h1
      exact events_cid (by rw [this]; simp)
    · rw [k3] at hne; exact absurd rfl hne
    · rw [k3] at hne; exact absurd rfl hne
  subst hcid
  exact ⟨e, d1, d2, rfl, h2, h3, h4, h6, h7, h8⟩

/-- An event is performed by a step of its call. -/
theorem Step.event_moves {κ κ' : Cfg α β} (hs : Step κ κ') {e : Ev α} (he : κ'.w.trace = κ.w.trace ++ [e]) :
    κ.Moves e.cid κ' := by
  cases hs with
  | act c r a again k w' b hc hr hx =>
    have h1 : w'.trace = κ.w.trace ++ [e] := he
    rw [exec_trace hx] at h1
    have h2 := List.append_cancel_left h1
    have h3 : e.cid = c := events_cid (by rw [h2]; simp)
    rw [h3]
    exact ⟨r, hc, .inl ⟨a, again, k, w', b, hr, hx, rfl⟩⟩
  | _ => exact absurd he (by simp)

/-- An event during call `c` comes from a call overlapping with `c`. -/
theorem Exec.event_overlap (h : Exec m l n κ) (hm : InitMem m l) {c : Cid} {r : Rec α β} (hc : (κ n).calls c = some r)
    {t : Nat} (h1 : r.callT ≤ t) (h2 : ∀ et fin, r.status.ended = some (et, fin) → t < et) (ht : t < n) {e : Ev α}
    (he : Happens κ t e) : (κ n).Overlap c e.cid := by
  obtain ⟨u, hu, -⟩ := h.window hm hc h1 (fun et fin he => Nat.le_of_lt (h2 et fin he)) (by omega)
  obtain ⟨u', hu', ho⟩ := h.window hm hc (s := t + 1) (by omega) (fun et fin he => h2 et fin he) (by omega)
  refine ho e ?_
  unfold Happens at he
  rw [hu, hu', List.append_assoc] at he
  rw [List.append_cancel_left he]; simp

/-- A value written by `c` stays until the end of the call unless `c` itself writes there again. -/
theorem Exec.write_stays (h : Exec m l n κ) (hm : InitMem m l) {c : Cid} {r : Rec α β} (hc : (κ n).calls c = some r)
    {d1 d2 : List (Ev α)} {i : Nat} {old v : α} (hd : dataOf c (κ n).w.trace = d1 ++ .write c i old v :: d2)
    (hd2 : ∀ e ∈ d2, ¬ e.Modifies i)
    (hq : ∀ d op, d ≠ c → (κ n).Overlap c d → (κ n).Called d op → ¬ op.MayWrite i) :
    ∃ t, t < n ∧ (κ n).During c t ∧ (κ t).Moves c (κ (t + 1)) ∧ dataOf c (κ t).w.trace = d1 ∧
      (κ (t + 1)).content i = some v ∧
      ∀ s, t + 1 ≤ s → s ≤ n → (∀ et fin, r.status.ended = some (et, fin) → s ≤ et) → (κ s).content i = some v := by
  obtain ⟨t, h1, h2, h3, h4, h5, h6⟩ := h.data_time hm hd
  have hv : (κ (t + 1)).content i = some v := by
    rw [(h.inv hm (by omega : t + 1 ≤ n)).content_eq, h6]
    simp [specNext, upd]
  refine ⟨t, h1, h4, (h.next t h1).event_moves h3, h2, hv, fun s hs => ?_⟩
  have hct : r.callT ≤ t := by
    obtain ⟨⟨t0, ⟨r', hr', rfl⟩, h7⟩, -⟩ := h4
    rw [hc] at hr'
    simp only [Option.some.injEq] at hr'
    subst hr'; exact h7
  induction hs with
  | refl => exact fun _ _ => hv
  | @step s hs ih =>
    intro hsn het
    have hs' : t + 1 ≤ s := hs
    have hcur := ih (by omega) (fun et fin he => by have := het et fin he; omega)
    by_contra hne
    have hne' : (κ s).content i ≠ (κ (s + 1)).content i := by rw [hcur]; exact fun h => hne h.symm
    obtain ⟨e, b1, b2, k1, k2, k3, k4, k5, k6, k7, k8⟩ := h.change hm (by omega : s < n) hne'
    have hmod : e.Modifies i := by
      rcases k8 with k8 | ⟨c', v', rfl⟩
      · exact k8
      · exfalso
        rw [(h.inv hm (by omega : s ≤ n)).content_eq] at hcur
        simp only [specOk] at k6
        rw [k6.2.2] at hcur; cases hcur
    by_cases hcid : e.cid = c
    · rw [hcid] at k3 k4
      obtain ⟨u, hu⟩ := (h.evolves hm hs' (by omega)).trace
      have k9 : d1 ++ [Ev.write c i old v] <+: b1 := by
        rw [← k4, ← hu, dataOf_append]
        unfold Happens at h3
        rw [h3, dataOf_append, h2, dataOf_cons_data (e := Ev.write c i old v) (c := c) rfl rfl]
        exact List.prefix_append _ _
      obtain ⟨b3, rfl⟩ := k9
      rw [hd] at k3
      simp only [List.append_assoc, List.cons_append, List.nil_append] at k3
      have := List.append_cancel_left k3
      simp only [List.cons.injEq, true_and] at this
      exact hd2 e (by rw [this]; simp) hmod
    · have hov := h.event_overlap hm hc (by omega : r.callT ≤ s) (fun et fin he => het et fin he) (by omega) k1
      have hmem : e ∈ (κ n).w.trace := by
        apply (h.evolves hm (by omega : s + 1 ≤ n) (Nat.le_refl n)).trace.subset
        unfold Happens at k1
        rw [k1]; simp
      obtain ⟨⟨op, ct, st, ss⟩, hr, hmw⟩ := (h.inv hm (Nat.le_refl n)).modifies hmem hmod
      exact hq e.cid op hcid hov ⟨ct, st, ss, hr⟩ hmw

/-- A position at which nobody writes during call `c`. -/
theorem Exec.untouched (h : Exec m l n κ) (hm : InitMem m l) {c : Cid} {r : Rec α β} (hc : (κ n).calls c = some r)
    {et : Nat} {fin : World α} (he : r.status.ended = some (et, fin)) {i : Nat} {v : α}
    (hd : ∀ e ∈ dataOf c (κ n).w.trace, ¬ e.Modifies i)
    (hq : ∀ d op, d ≠ c → (κ n).Overlap c d → (κ n).Called d op → ¬ op.MayWrite i)
    (h0 : r.start.mem.content i = some v) : fin.mem.content i = some v := by
  obtain ⟨e1, e2, e3, e4, e5⟩ := h.ends hm hc he
  have key : ∀ s, r.callT ≤ s → s ≤ et → (κ s).content i = some v := by
    intro s hs
    induction hs with
    | refl => intro _; show (κ r.callT).w.mem.content i = _; rw [← e3]; exact h0
    | @step s hs ih =>
      intro hse
      have hs' : r.callT ≤ s := hs
      have hcur := ih (by omega)
      by_contra hne
      have hne' : (κ s).content i ≠ (κ (s + 1)).content i := by rw [hcur]; exact fun h => hne h.symm
      obtain ⟨e, b1, b2, k1, k2, k3, k4, k5, k6, k7, k8⟩ := h.change hm (by omega : s < n) hne'
      have hmod : e.Modifies i := by
        rcases k8 with k8 | ⟨c', v', rfl⟩
        · exact k8
        · exfalso
          rw [(h.inv hm (by omega : s ≤ n)).content_eq] at hcur
          simp only [specOk] at k6
          rw [k6.2.2] at hcur; cases hcur
      by_cases hcid : e.cid = c
      · rw [hcid] at k3
        exact hd e (by rw [k3]; simp) hmod
      · have hov := h.event_overlap hm hc hs' (fun et' fin' he' => by have := e5 et' fin' he'; omega) (by omega) k1
        have hmem : e ∈ (κ n).w.trace := by
          apply (h.evolves hm (by omega : s + 1 ≤ n) (Nat.le_refl n)).trace.subset
          unfold Happens at k1
          rw [k1]; simp
        obtain ⟨⟨op, ct, st, ss⟩, hr, hmw⟩ := (h.inv hm (Nat.le_refl n)).modifies hmem hmod
        exact hq e.cid op hcid hov ⟨ct, st, ss, hr⟩ hmw
  rw [e4]; exact key et (by omega) (Nat.le_refl _)

/-- Everything about a call whose data events are writes to the positions from `a` on. -/
theorem Exec.writes_all (h : Exec m l n κ) (hm : InitMem m l) {c : Cid} {r : Rec α β} (hc : (κ n).calls c = some r)
    {et : Nat} {fin : World α} (he : r.status.ended = some (et, fin)) {a : Nat} {ps : List (α × α)}
    (hd : dataOf c (κ n).w.trace = writes c a ps) {i : Nat}
    (hq : ∀ d op, d ≠ c → (κ n).Overlap c d → (κ n).Called d op → ¬ op.MayWrite i) :
    (∀ (j : Nat) p, i = a + j → ps[j]? = some p → fin.mem.content i = some p.2) ∧
    ((i < a ∨ a + ps.length ≤ i) → ∀ v, r.start.mem.content i = some v → fin.mem.content i = some v) := by
  obtain ⟨e1, e2, e3, e4, e5⟩ := h.ends hm hc he
  constructor
  · rintro j p rfl hp
    rw [writes_split hp] at hd
    obtain ⟨t, h1, h2, -, h5, h3, h4⟩ := h.write_stays hm hc hd (fun e he' hmod => by
      obtain ⟨j', q, -, rfl⟩ := mem_writes he'
      simp only [Ev.Modifies] at hmod
      omega) hq
    rw [e4]
    refine h4 et ?_ (by omega) e5
    rcases Nat.lt_or_ge t et with hlt | hge
    · exact hlt
    · exfalso
      have hte : t ≤ et := h2.2 et ⟨r, fin, hc, he⟩
      have : t = et := by omega
      subst this
      have hev := ((h.inv hm (Nat.le_refl n)).dataEnd hc he).1
      rw [e4, h5, hd] at hev
      have := congrArg List.length hev
      simp at this
  · intro hi v hv
    refine h.untouched hm hc he (fun e he' hmod => ?_) hq hv
    rw [hd] at he'
    obtain ⟨j', q, hq', rfl⟩ := mem_writes he'
    simp only [Ev.Modifies] at hmod
    have := (List.getElem?_eq_some_iff.1 hq').1
    omega

end Verif
