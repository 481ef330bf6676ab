import Verif.Weak.Wrap
import Verif.Weak.SpecWrap
import Verif.Weak.Trace
import Verif.Proof.Wrap

/-! # Machine integers under weak memory: helper lemmas -/

namespace Verif.Weak

variable {α β : Type} {m : Mem α} {l : List α} {κ κ' : Cfg α β} {K K0 : Cid → Know} {S : Cid → DS α} {t : List (Ev α)}

theorem TInv.sizes_nodup (h : TInv l κ K K0 S t) : ((sizes t).map Prod.fst).Nodup := by
  have key : ∀ u v : List (Ev α), t = u ++ v → ((sizes u).map Prod.fst).Nodup := by
    intro u
    induction u using List.reverseRecOn with
    | nil => intro v _; simp [sizes]
    | append_singleton u e ih =>
      intro v hv
      have hn := ih (e :: v) (by rw [hv]; simp)
      rw [sizes_append, List.map_append, List.nodup_append]
      refine ⟨hn, ?_, ?_⟩
      · cases e <;> simp [sizes]
      · intro c hc c' hc' hcc
        subst hcc
        cases e with
        | reserve c1 b n =>
          simp [sizes] at hc'
          subst hc'
          obtain ⟨r, hr, ha⟩ := h.allow u (.reserve c b n) v (by rw [hv]; simp)
          have hd := (allows_reserve ha).1
          rw [List.mem_map] at hc
          obtain ⟨p, hp, rfl⟩ := hc
          obtain ⟨b', hb'⟩ := mem_sizes hp
          have : Ev.reserve p.1 b' p.2 ∈ dataOf p.1 u := mem_dataOf.2 ⟨hb', rfl, rfl⟩
          change dataOf p.1 u = [] at hd
          rw [hd] at this
          cases this
        | _ => simp [sizes] at hc'
  exact key t [] (by simp)

theorem TInv.reserved_le (h : TInv l κ K K0 S t) (hnew : ∀ c, κ.next ≤ c → κ.calls c = none) :
    lastVal κ.mem.res ≤ l.length + κ.requested := by
  rw [← h.len, specAt_sizes]
  show l.length + _ ≤ _
  refine Nat.add_le_add_left ?_ _
  have hs : (sizes t).map Prod.snd =
      ((sizes t).map Prod.fst).map fun c => ((κ.calls c).bind fun r => r.op.size).getD 0 := by
    rw [List.map_map]
    refine List.map_congr_left fun p hp => ?_
    obtain ⟨b, hb⟩ := mem_sizes hp
    obtain ⟨t1, t2, ht⟩ := List.append_of_mem hb
    obtain ⟨r, hr, ha⟩ := h.allow t1 _ t2 ht
    have hsz := (allows_reserve ha).2
    change κ.calls p.1 = some r at hr
    simp [hr, hsz]
  rw [hs]
  refine sum_range_le _ _ _ h.sizes_nodup fun c hc => ?_
  rw [List.mem_map] at hc
  obtain ⟨p, hp, rfl⟩ := hc
  obtain ⟨b, hb⟩ := mem_sizes hp
  obtain ⟨t1, t2, ht⟩ := List.append_of_mem hb
  obtain ⟨r, hr, -⟩ := h.allow t1 _ t2 ht
  change κ.calls p.1 = some r at hr
  rcases Nat.lt_or_ge p.1 κ.next with hlt | hge
  · exact hlt
  · rw [hnew _ hge] at hr; cases hr

theorem requested_mono (h : Step κ κ') : κ.requested ≤ κ'.requested := by
  have key : ∀ (c : Cid) (r r' : Rec α β), κ.calls c = some r → r'.op = r.op →
      (fun d => ((upd κ.calls c (some r') d).bind fun r => r.op.size).getD 0) =
        fun d => ((κ.calls d).bind fun r => r.op.size).getD 0 := by
    intro c r r' hc ho
    funext d
    by_cases hd : d = c
    · subst hd; simp [hc, ho]
    · simp [upd_other _ _ hd]
  cases h with
  | call op H V hH h hp =>
    unfold Cfg.requested
    rw [List.range_succ, List.map_append, List.sum_append]
    have : (List.range κ.next).map (fun c => ((upd κ.calls κ.next (some ⟨op, H, V, V, .running op.prog⟩) c).bind
        fun r => r.op.size).getD 0) = (List.range κ.next).map fun c => ((κ.calls c).bind fun r => r.op.size).getD 0 := by
      refine List.map_congr_left fun c hc => ?_
      rw [upd_other _ _ (Nat.ne_of_lt (List.mem_range.1 hc))]
    rw [this]
    exact Nat.le_add_right _ _
  | act c r a again k t V m b hc hr he => 
    exact Nat.le_of_eq (congrArg (fun f => ((List.range κ.next).map f).sum) (key c r { r with view := V, status := .running (if again b then .step a again k else k b) } hc rfl).symm)
  | bad c r a again k t x hc hr he => exact Nat.le_refl _
  | ret c r x hc hr => 
    exact Nat.le_of_eq (congrArg (fun f => ((List.range κ.next).map f).sum) (key c r { r with status := .done x } hc rfl).symm)
  | panic c r k hc hr => 
    exact Nat.le_of_eq (congrArg (fun f => ((List.range κ.next).map f).sum) (key c r { r with status := .panicked k } hc rfl).symm)
  | reserveMax n h => exact Nat.le_refl _

theorem exec_res {a : Act α} {t : Nat} {V V' : View} {m m' : WMem α} {b : a.Resp} (h : exec a t V m = .ok V' m' b) :
    m'.res = m.res ∨ ∃ r, m'.res = m.res ++ [r] := by
  cases a <;> simp only [exec] at h <;> (repeat' split at h) <;> cases h <;> first | exact .inl rfl | exact .inr ⟨_, rfl⟩

theorem Step.res (h : Step κ κ') : κ'.mem.res = κ.mem.res ∨ ∃ r, κ'.mem.res = κ.mem.res ++ [r] := by
  cases h with
  | act c r a again k t V m b hc hr he => exact exec_res he
  | _ => exact .inl rfl

theorem Cfg.wrap_eq {W : Nat} (h : ∀ r ∈ κ.mem.res, r.val < W) : κ.wrap W = κ := by
  have : (κ.mem.res.map fun r => { r with val := r.val % W }) = κ.mem.res := by
    conv_rhs => rw [← List.map_id κ.mem.res]
    refine List.map_congr_left fun r hr => ?_
    rw [Nat.mod_eq_of_lt (h r hr)]
    rfl
  unfold Cfg.wrap
  rw [this]

theorem Step.keeps_new (hs : Step κ κ') (ih : ∀ d, κ.next ≤ d → κ.calls d = none) : ∀ d, κ'.next ≤ d → κ'.calls d = none := by
  intro d hd
  have key : ∀ c r x, κ.calls c = some r → κ.next ≤ d → upd κ.calls c x d = none := by
    intro c r x hc hd
    rw [upd_apply]
    split
    · next he => rw [← he, ih d hd] at hc; cases hc
    · exact ih d hd
  cases hs with
  | call op H V hH hn' hp =>
    have hd : κ.next + 1 ≤ d := hd
    show upd κ.calls κ.next _ d = _
    rw [upd_apply, if_neg (Nat.ne_of_gt hd)]; exact ih d (Nat.le_of_succ_le hd)
  | act d r' a again k t V m b hc hr' he => exact key _ _ _ hc hd
  | bad d r' a again k t x hc hr' he => exact ih _ hd
  | ret d r' x hc hr' => exact key _ _ _ hc hd
  | panic d r' k hc hr' => exact key _ _ _ hc hd
  | reserveMax n hi => exact ih _ hd

theorem ReachW.new {W : Nat} (h : ReachW W m κ) : ∀ d, κ.next ≤ d → κ.calls d = none := by
  induction h with
  | init => intro d _; rfl
  | step h hs ih => intro d hd; exact Step.keeps_new hs ih d hd

theorem ReachW.reach {W : Nat} (h : ReachW W m κ) (hm : InitMem m l) (hd : κ.Disciplined) (hb : l.length + κ.requested < W) :
    Reach m κ ∧ ∀ r ∈ κ.mem.res, r.val < W := by
  induction h with
  | init =>
    refine ⟨.init, fun r hr => ?_⟩
    have : r = .init m.reserved := by simpa [Cfg.init, WMem.init] using hr
    subst this
    have := hm.reserved
    simp only [Msg.init]
    omega
  | @step κ κ' h hs ih =>
    have hd' : κ'.Disciplined := hd
    have hb' : l.length + κ'.requested < W := hb
    have hq := requested_mono hs
    have hnew := h.new
    obtain ⟨hr, hv⟩ := ih (fun c e hc d op hd => hd' c e (hs.called hnew hc) d op (hs.called hnew hd)) (by omega)
    have hr' : Reach m κ' := .step hr hs
    obtain ⟨K, K0, S, t, hW, hT⟩ := tinv (D := ⟨fun e => ∃ c, κ'.Called c (.deref e), False, fun _ _ => True⟩) hm hr' fun c op hc =>
      ⟨fun i ⟨c', hc'⟩ => hd' c' i hc' c op hc, fun _ he => ⟨c, he ▸ hc⟩, fun h => h.elim, fun _ _ _ => trivial⟩
    have hl := hT.reserved_le hr'.new
    have hall : ∀ r ∈ κ'.mem.res, r.val < W := by
      rcases hs.res with he | ⟨x, he⟩
      · rw [he]; exact hv
      · rw [he]
        intro r hr
        rcases List.mem_append.1 hr with hr | hr
        · exact hv r hr
        · have : r = x := by simpa using hr
          subst this
          rw [he, lastVal_append] at hl
          omega
    rw [Cfg.wrap_eq hall]
    exact ⟨hr', hall⟩

end Verif.Weak
