import Verif.Proof.EventTime
import Verif.Props.Demo
import Mathlib.Logic.Equiv.Basic

/-!
# `swap`: C20, C21
-/

namespace Verif

variable {α β : Type} {m : Mem α} {l : List α} {n : Nat} {κ : Nat → Cfg α β}

/-! ## C20 -/

theorem CfgInv.swapData {σ₀ : SpecSt α} {κ : Cfg α β} (hI : CfgInv σ₀ κ) {c : Cid} {op : Op α β} {i j : Nat}
    {x : Ret α β} (ho : op.SwapOf i j) (hr : κ.Returned c op x) :
    (x = .bool true ∧ i ≠ j ∧ dataOf c κ.w.trace = [.swap c i j]) ∨
    (x = .bool false ∧ dataOf c κ.w.trace = []) := by
  obtain ⟨ct, st, et, fin, hc⟩ := hr
  obtain ⟨d, hinfo⟩ := hI.returned hc
  have hout := hinfo.out
  cases op <;> simp only [Op.SwapOf] at ho
  · obtain ⟨rfl, rfl⟩ := ho
    rcases hout with ⟨k, -, -, -, hne, rfl, hd⟩ | ⟨rfl, hd, -⟩
    · exact .inl ⟨rfl, hne, hinfo.data.trans hd⟩
    · exact .inr ⟨rfl, hinfo.data.trans hd⟩
  · obtain ⟨rfl, rfl⟩ := ho
    rcases hout with ⟨-, -, hne, rfl, hd⟩ | ⟨rfl, hd, -⟩
    · exact .inl ⟨rfl, by omega, hinfo.data.trans hd⟩
    · exact .inr ⟨rfl, hinfo.data.trans hd⟩

/-- **C20.** If `swap(i, j)` (of the vector or of a slice) returned `true`, then in one step during the call the
values of `i` and `j` were exchanged, and nothing else changed in this step. -/
theorem C20_atomic (hm : InitMem m l) (h : Exec m l n κ) {c : Cid} {op : Op α β} {i j : Nat} (ho : op.SwapOf i j)
    (hr : (κ n).Returned c op (.bool true)) :
    i ≠ j ∧ ∃ t a b, (κ n).During c t ∧ (κ t).content i = some a ∧ (κ t).content j = some b ∧
      (κ (t + 1)).content i = some b ∧ (κ (t + 1)).content j = some a ∧
      ∀ k, k ≠ i → k ≠ j → (κ (t + 1)).content k = (κ t).content k := by
  have hI := h.inv hm (Nat.le_refl n)
  rcases hI.swapData ho hr with ⟨-, hne, hd⟩ | ⟨hx, -⟩
  · obtain ⟨t, k1, -, -, k4, k5, k6⟩ := h.data_time hm (d1 := []) (d2 := []) hd
    have hc := (h.inv hm (by omega : t ≤ n)).content_eq
    have hc' := (h.inv hm (by omega : t + 1 ≤ n)).content_eq
    obtain ⟨-, hi, hj⟩ := k5
    obtain ⟨a, ha⟩ := Option.isSome_iff_exists.1 hi
    obtain ⟨b, hb⟩ := Option.isSome_iff_exists.1 hj
    refine ⟨hne, t, a, b, k4, by rw [hc, ha], by rw [hc, hb], ?_, ?_, ?_⟩
    · rw [hc', k6]; simp [specNext, hne, hb]
    · rw [hc', k6]; simp [specNext, ha]
    · intro k h1 h2; rw [hc', hc, k6]; simp [specNext, h1, h2]
  · cases hx

/-- **C20.** If `swap` returned `false` it changed nothing: whatever changed during it was changed by another call. -/
theorem C20_false_changes_nothing (hm : InitMem m l) (h : Exec m l n κ) {c : Cid} {op : Op α β} {i j : Nat}
    (ho : op.SwapOf i j) (hr : (κ n).Returned c op (.bool false)) {t k : Nat} (ht : t < n)
    (hne : (κ t).content k ≠ (κ (t + 1)).content k) :
    ∃ d op', d ≠ c ∧ (κ n).Called d op' ∧ (κ n).During d t ∧ (op'.MayWrite k ∨ op'.size ≠ none) := by
  have hI := h.inv hm (Nat.le_refl n)
  obtain ⟨e, d1, d2, k1, k2, k3, k4, k5, k6, k7, k8⟩ := h.change hm ht hne
  have hmem : e ∈ (κ n).w.trace := (mem_dataOf.1 (by rw [k3]; simp : e ∈ dataOf e.cid (κ n).w.trace)).1
  obtain ⟨t1, t2, hsplit⟩ := List.append_of_mem hmem
  obtain ⟨⟨op', ct, st, s⟩, hr', -⟩ := hI.events t1 e t2 hsplit
  refine ⟨e.cid, op', ?_, ⟨ct, st, s, hr'⟩, k2, ?_⟩
  · rintro rfl
    rcases hI.swapData ho hr with ⟨hx, -⟩ | ⟨-, hd⟩
    · cases hx
    · rw [hd] at k3; simp at k3
  · rcases k8 with hmod | ⟨c', v, rfl⟩
    · obtain ⟨r'', hr'', hmw⟩ := hI.modifies hmem hmod
      rw [hr'] at hr''
      simp only [Option.some.injEq] at hr''
      subst hr''
      exact .inl hmw
    · right
      obtain ⟨op'', k, hc'', hsz⟩ := hI.publish_call hmem
      rw [Cfg.Called.unique (op := op') (op' := op'') ⟨ct, st, s, hr'⟩ hc''] at hsz
      rw [hsz]; simp

/-- **C20.** A blocking `swap(i, j)` of the vector that was alone, with `i ≠ j` in bounds (all positions up to `i`
and `j` initialised when it was invoked), and that returned, returned `true`. -/
theorem C20_in_bounds_alone (hm : InitMem m l) (h : Exec m l n κ) {c : Cid} {i j : Nat} {x : Ret α β}
    {mem : Mem α} (hr : (κ n).Returned c (.swap .spinning i j) x) (ha : (κ n).Alone c) (hs : (κ n).AtStart c mem)
    (hin : ∀ k, k ≤ i ∨ k ≤ j → (mem.content k).isSome) : x = .bool true := by
  have hI := h.inv hm (Nat.le_refl n)
  obtain ⟨ct, st, et, fin, hc⟩ := hr
  obtain ⟨d, hinfo⟩ := hI.returned hc
  obtain ⟨r, hr, rfl⟩ := hs
  rw [hc] at hr
  simp only [Option.some.injEq] at hr
  subst hr
  rcases hinfo.out with ⟨k, -, -, -, -, hx, -⟩ | ⟨-, -, ⟨k, hl, hk⟩ | hk⟩
  · exact hx
  · exfalso
    rcases hl.lower (k + 1) (fun p hp => by
      rw [← hinfo.invStart.content_eq]; exact hin p (by omega)) with hle | ⟨d', hd'⟩
    · omega
    · have hd'' := hinfo.ev2.trace.subset hd'
      obtain ⟨r1, r2, hr1, hr2, hb1, hb2⟩ := hI.busy _ _ _ hd''
      obtain ⟨t1, t2, ht⟩ := List.append_of_mem hd''
      have hne : c ≠ d' := (hI.inv.legal t1 _ t2 ht).2
      refine ha d' (Ne.symm hne) ⟨⟨r1, hr1⟩, ⟨r2, hr2⟩, ?_, ?_⟩
      · rintro ⟨a, b, ha, hb, hh⟩
        rw [hr1] at ha; rw [hr2] at hb
        simp only [Option.some.injEq] at ha hb
        subst ha hb
        exact hb1 hh
      · rintro ⟨a, b, ha, hb, hh⟩
        rw [hr2] at ha; rw [hr1] at hb
        simp only [Option.some.injEq] at ha hb
        subst ha hb
        exact hb2 hh
  · cases hk

/-- **C20 (partial).** A blocking `swap(i, j)` returned `false` only if some position up to `i` or `j` was not
initialised when it was invoked, or the element at some position up to `i` or `j` was locked by another,
overlapping call at some moment of the call. Missing for the full statement: the second case; it does occur, see
`C20_false_in_bounds`. -/
theorem C20_false_only_partial (hm : InitMem m l) (h : Exec m l n κ) {c : Cid} {i j : Nat} {mem : Mem α}
    (hr : (κ n).Returned c (.swap .spinning i j) (.bool false)) (hs : (κ n).AtStart c mem) :
    ∃ k, (k ≤ i ∨ k ≤ j) ∧ (mem.content k = none ∨
      ∃ t d, (κ n).During c t ∧ d ≠ c ∧ (κ n).Overlap c d ∧ (κ t).w.mem.st k = .RESERVED) := by
  have hI := h.inv hm (Nat.le_refl n)
  obtain ⟨ct, st, et, fin, hc⟩ := hr
  obtain ⟨dd, hinfo⟩ := hI.returned hc
  obtain ⟨r, hr, rfl⟩ := hs
  rw [hc] at hr
  simp only [Option.some.injEq] at hr
  subst hr
  rcases hinfo.out with ⟨k, -, -, -, -, hx, -⟩ | ⟨-, -, ⟨k, hl, hk⟩ | hk⟩
  · cases hx
  · by_cases hall : ∀ p, p < k + 1 → (st.spec.val p).isSome
    · refine ⟨k, hk, .inr ?_⟩
      rcases hl.lower (k + 1) hall with hle | ⟨d', hd'⟩
      · omega
      · have hd'' := hinfo.ev2.trace.subset hd'
        obtain ⟨r1, r2, hr1, hr2, hb1, hb2⟩ := hI.busy _ _ _ hd''
        obtain ⟨t1, t2, ht⟩ := List.append_of_mem hd''
        have hne : c ≠ d' := (hI.inv.legal t1 _ t2 ht).2
        obtain ⟨t, c', r, a, again, kk, b, htn, h1, hcr, hrun, hx, hev, h2⟩ := h.event ht
        obtain ⟨rfl, hhold⟩ := busy_event hev
        obtain ⟨-, -, -, -, hdur⟩ := h.during hm htn hcr hrun
        refine ⟨t, d', hdur, Ne.symm hne, ⟨⟨r1, hr1⟩, ⟨r2, hr2⟩, ?_, ?_⟩,
          ((h.inv hm (by omega : t ≤ n)).inv.lock k).2 (by simp [hhold])⟩
        · rintro ⟨a, b, ha, hb, hh⟩
          rw [hr1] at ha; rw [hr2] at hb
          simp only [Option.some.injEq] at ha hb
          subst ha hb
          exact hb1 hh
        · rintro ⟨a, b, ha, hb, hh⟩
          rw [hr2] at ha; rw [hr1] at hb
          simp only [Option.some.injEq] at ha hb
          subst ha hb
          exact hb2 hh
    · simp only [not_forall] at hall
      obtain ⟨p, hp, hnone⟩ := hall
      refine ⟨p, by omega, .inl ?_⟩
      rw [hinfo.invStart.content_eq]
      simpa using hnone
  · cases hk

/-! ### Conservation -/

theorem perm_range_swap {f : Nat → α} {N i j : Nat} (hi : i < N) (hj : j < N) :
    ((List.range N).map f).Perm
      ((List.range N).map fun k => if k = j then f i else if k = i then f j else f k) := by
  have h1 : ((List.range N).map (Equiv.swap i j)).Perm (List.range N) := by
    rw [List.perm_ext_iff_of_nodup ((List.nodup_range).map (Equiv.injective _)) List.nodup_range]
    intro a
    simp only [List.mem_map, List.mem_range]
    constructor
    · rintro ⟨b, hb, rfl⟩
      rw [Equiv.swap_apply_def]
      split
      · exact hj
      · split
        · exact hi
        · exact hb
    · intro ha
      refine ⟨Equiv.swap i j a, ?_, Equiv.swap_apply_self _ _ _⟩
      rw [Equiv.swap_apply_def]
      split
      · exact hj
      · split
        · exact hi
        · exact ha
  have h2 := (h1.map f).symm
  rw [List.map_map] at h2
  refine h2.trans (List.Perm.of_eq ?_)
  apply List.map_congr_left
  intro k _
  simp only [Function.comp, Equiv.swap_apply_def]
  grind

theorem Legal.swap_perm {σ : SpecSt α} {t : List (Ev α)} (h : Legal σ t) (F : Nat → α) (N : Nat)
    (hp : ∀ c i v, Ev.publish c i v ∈ t → v = F i) (hw : ∀ c i o v, Ev.write c i o v ∉ t)
    (hN : ∀ i, ((specAt σ t).val i).isSome → i < N) :
    ((List.range N).map fun i => (σ.val i).getD (F i)).Perm
      ((List.range N).map fun i => ((specAt σ t).val i).getD (F i)) := by
  induction t generalizing σ with
  | nil => exact .refl _
  | cons e t ih =>
    have hok : specOk σ e := h [] e t rfl
    have hleg : Legal (specNext σ e) t := Legal.suffix (t := [e]) h
    have ih := ih hleg (fun c i v hh => hp c i v (List.mem_cons_of_mem _ hh))
      (fun c i o v hh => hw c i o v (List.mem_cons_of_mem _ hh)) hN
    refine List.Perm.trans ?_ ih
    cases e with
    | publish c i v =>
      have hv := hp c i v (by simp)
      have : (fun k => (σ.val k).getD (F k)) = fun k => ((specNext σ (.publish c i v)).val k).getD (F k) := by
        funext k
        simp only [specNext, upd_apply]
        split
        · rename_i hk
          subst hk
          rw [hok.2.2, hv]; rfl
        · rfl
      rw [this]
    | write c i o v => exact absurd (by simp) (hw c i o v)
    | swap c i j =>
      have hok' := hok
      obtain ⟨hne, hi, hj⟩ := hok
      have hi' : i < N := hN i (specAt_pub hleg (specNext_pub hok' hi))
      have hj' : j < N := hN j (specAt_pub hleg (specNext_pub hok' hj))
      refine (perm_range_swap (f := fun k => (σ.val k).getD (F k)) hi' hj').trans (List.Perm.of_eq ?_)
      apply List.map_congr_left
      intro k _
      obtain ⟨a, ha⟩ := Option.isSome_iff_exists.1 hi
      obtain ⟨b, hb⟩ := Option.isSome_iff_exists.1 hj
      simp only [specNext, upd_apply]
      split
      · simp [ha]
      · split
        · simp [hb]
        · rfl
    | _ => exact .refl _

/-- **C20.** Swaps never create, lose or duplicate a value: if only swaps write to elements (any number of concurrent
growth and read calls are allowed), the values of the vector are a permutation of the values that were stored when the
elements were created. -/
theorem C20_conserves (hm : InitMem m l) (h : Exec m l n κ)
    (hsw : ∀ c op k, (κ n).Called c op → op.MayWrite k → ∃ i j, op.SwapOf i j) {vs fs : List α}
    (hv : (κ n).w.mem.Holds vs) (hlen : fs.length = vs.length)
    (hf : ∀ k v, fs[k]? = some v → FirstValue κ n k v) : fs.Perm vs := by
  have hI := h.inv hm (Nat.le_refl n)
  have hval : ∀ k, (κ n).w.spec.val k = vs[k]? := fun k => by rw [← hI.content_eq]; exact hv k
  have hleg := hI.inv.legal
  by_cases hemp : vs.length = 0
  · rw [hemp] at hlen
    rw [List.eq_nil_of_length_eq_zero hemp, List.eq_nil_of_length_eq_zero hlen]
  obtain ⟨d, hd⟩ : ∃ d : α, True := ⟨vs[0]'(by omega), trivial⟩
  let F : Nat → α := fun k => (fs[k]?).getD d
  have hFs : ∀ k, k < fs.length → fs[k]? = some (F k) := fun k hk => by
    simp only [F]; rw [List.getElem?_eq_getElem hk]; rfl
  have hspec : (κ n).w.spec = specAt (.ofList l) (κ n).w.trace := hI.inv.spec_eq
  -- the first value of a position
  have hfirst : ∀ c i v, Ev.publish c i v ∈ (κ n).w.trace → v = F i := by
    intro c i v he
    have hpub := hleg.publish_pub he
    rw [← hspec, hval] at hpub
    have hik : i < vs.length := by
      rcases Nat.lt_or_ge i vs.length with h1 | h1
      · exact h1
      · rw [List.getElem?_eq_none h1] at hpub; cases hpub
    have hd : Ev.publish c i v ∈ dataOf c (κ n).w.trace := mem_dataOf.2 ⟨he, rfl, rfl⟩
    obtain ⟨d1, d2, hdd⟩ := List.append_of_mem hd
    obtain ⟨t, k1, -, k3, -, k5, k6⟩ := h.data_time hm hdd
    have hIt := h.inv hm (by omega : t ≤ n)
    have hIt' := h.inv hm (by omega : t + 1 ≤ n)
    have hnone : (κ t).content i = none := by rw [hIt.content_eq]; exact k5.2.2
    have hsome : (κ (t + 1)).content i = some v := by rw [hIt'.content_eq, k6]; simp [specNext]
    rcases hf i (F i) (hFs i (by omega)) with h0 | ⟨s, hs, hn0, hs1⟩
    · have := h.keep_some hm (Nat.zero_le t) (by omega) (i := i) (by rw [h0]; rfl)
      rw [hnone] at this; cases this
    · rcases Nat.lt_trichotomy s t with hlt | heq | hgt
      · have := h.keep_some hm (by omega : s + 1 ≤ t) (by omega) (i := i) (by rw [hs1]; rfl)
        rw [hnone] at this; cases this
      · subst heq
        rw [hsome] at hs1
        exact Option.some.inj hs1
      · have := h.keep_some hm (by omega : t + 1 ≤ s) (by omega) (i := i) (by rw [hsome]; rfl)
        rw [hn0] at this; cases this
  have hnw : ∀ c i o v, Ev.write c i o v ∉ (κ n).w.trace := by
    intro c i o v he
    obtain ⟨t1, t2, ht⟩ := List.append_of_mem he
    obtain ⟨⟨op, ct, st, s⟩, hr, hal⟩ := hI.events t1 _ t2 ht
    obtain ⟨r', hr', hmw⟩ := hI.modifies he (i := i) rfl
    rw [hr] at hr'
    simp only [Option.some.injEq] at hr'
    subst hr'
    obtain ⟨a, b, hab⟩ := hsw c op i ⟨ct, st, s, hr⟩ hmw
    rcases hal with hal | hal
    · cases hal
    · cases op <;> simp only [Op.SwapOf] at hab <;> simp only [Op.Allows] at hal
  have hperm := hleg.swap_perm F vs.length hfirst hnw (fun i hi => by
    rw [← hspec, hval] at hi
    rcases Nat.lt_or_ge i vs.length with h1 | h1
    · exact h1
    · rw [List.getElem?_eq_none h1] at hi; cases hi)
  have hL : ((List.range vs.length).map fun i => ((SpecSt.ofList l).val i).getD (F i)) = fs := by
    apply List.ext_getElem?
    intro k
    rcases Nat.lt_or_ge k vs.length with hk | hk
    · rw [List.getElem?_map, List.getElem?_range hk, hFs k (by omega)]
      simp only [Option.map_some, Option.some.injEq]
      rcases h0 : (SpecSt.ofList l).val k with _ | v
      · rfl
      · simp only [Option.getD_some]
        have hc0 : (κ 0).content k = some v := by
          rw [(h.inv hm (Nat.zero_le n)).content_eq, h.init]; exact h0
        rcases hf k (F k) (hFs k (by omega)) with hf0 | ⟨s, hs, hn0, hs1⟩
        · rw [hc0] at hf0; exact Option.some.inj hf0
        · have := h.keep_some hm (Nat.zero_le s) (by omega) (i := k) (by rw [hc0]; rfl)
          rw [hn0] at this; cases this
    · rw [List.getElem?_eq_none (by simpa using hk), List.getElem?_eq_none (by omega)]
  have hR : ((List.range vs.length).map fun i => ((specAt (.ofList l) (κ n).w.trace).val i).getD (F i)) = vs := by
    apply List.ext_getElem?
    intro k
    rcases Nat.lt_or_ge k vs.length with hk | hk
    · rw [List.getElem?_map, List.getElem?_range hk]
      simp only [Option.map_some]
      rw [← hspec, hval, List.getElem?_eq_getElem hk]
      rfl
    · rw [List.getElem?_eq_none (by simpa using hk), List.getElem?_eq_none hk]
  rw [hL, hR] at hperm
  exact hperm

section examples
open Demo

/-- `swap(0, 1)` has to wait for `swap(1, 2)`, which holds element 1. -/
def Demo.swaps : List (Choice Nat Nat) :=
  [.call (.swap .spinning 0 1), .call (.swap .spinning 1 2)] ++ go 1 10 ++ go 2 6 ++ go 1 4 ++ go 2 10 ++ go 1 5

example : let κ := after [10, 20, 30] 3 8 swaps
    Possible [10, 20, 30] 3 8 swaps ∧ κ.Returned 1 (.swap .spinning 0 1) (.bool true) ∧
    κ.Returned 2 (.swap .spinning 1 2) (.bool true) ∧ κ.w.mem.Holds [30, 10, 20] :=
  ⟨by unfold Possible; rfl, returned_of rfl rfl, returned_of rfl rfl, fun i => by
    match i with
    | 0 => rfl
    | 1 => rfl
    | 2 => rfl
    | i + 3 => rfl⟩

/-- A push completed; while `get_cloned` of the new element is in progress, `swap` finds a too small length. -/
def Demo.swapMiss : List (Choice Nat Nat) :=
  [.call (.push 30)] ++ go 1 6 ++ [.call (.getCloned 2), .call (.swap .spinning 0 2)] ++ go 2 4 ++ go 3 14 ++ go 2 3

end examples

/-- **C20, deviation.** A blocking `swap` can return `false` although both positions are in bounds: if the last element
was never counted by a call of `len` before and is locked at this moment, even by a reader. -/
theorem C20_false_in_bounds : ∃ (κ : Cfg Nat Nat) (mem : Mem Nat), Reach (Demo.mem [10, 20] 3 8) [10, 20] κ ∧ κ.Idle ∧
    κ.Returned 3 (.swap .spinning 0 2) (.bool false) ∧ κ.AtStart 3 mem ∧ mem.Holds [10, 20, 30] ∧
    ∀ c op, κ.Called c op → op = .push 30 ∨ op = .getCloned 2 ∨ op = .swap .spinning 0 2 := by
  have hre : Reach (Demo.mem [10, 20] 3 8) [10, 20] (Demo.after [10, 20] 3 8 Demo.swapMiss) :=
    Demo.reach_after (by unfold Demo.Possible; rfl)
  refine ⟨Demo.after [10, 20] 3 8 Demo.swapMiss, _, hre, ?_, Demo.returned_of rfl rfl, ⟨_, rfl, rfl⟩, fun i => ?_, ?_⟩
  · exact Demo.idle_of (by decide) (by decide) hre rfl
  · match i with
    | 0 => rfl
    | 1 => rfl
    | 2 => rfl
    | i + 3 => rfl
  · intro c op hc
    have := Demo.called_of (by decide) (by decide) hre (ops := [.push 30, .getCloned 2, .swap .spinning 0 2]) rfl hc
    simpa using this

end Verif
