import Verif.Proof.Quiet
import Verif.Props.Demo

/-!
# `len`: C10, C11, C12
-/

namespace Verif

variable {α β : Type} {m : Mem α} {l : List α} {κ : Cfg α β}

/-! ## C10 -/

/-- **C10.** When `len()` returned `n` (or `iter()`, `as_slice()` covers `n` elements), every position below `n` was
completely initialised when the call returned, and is from then on. -/
theorem C10_len_initialised (hm : InitMem m l) (h : Reach m l κ) {c : Cid} {op : Op α β} {x : Ret α β} {n : Nat}
    (hr : κ.Returned c op x) (hn : op.ReportsLen n x) {i : Nat} (hi : i < n) :
    (κ.content i).isSome ∧ ∀ mem, κ.AtEnd c mem → (mem.content i).isSome := by
  have hI := h.inv hm
  obtain ⟨ct, st, et, fin, hc⟩ := hr
  obtain ⟨d, hinfo⟩ := hI.returned hc
  have hl := (hinfo.lenOK hn).1
  refine ⟨by rw [hI.content_eq]; exact hinfo.ev2.pub i (hl.pub i hi), ?_⟩
  rintro mem ⟨r, t, w, h1, h2, rfl⟩
  rw [hc] at h1
  simp only [Option.some.injEq] at h1
  subst h1
  simp only [Status.ended, Option.some.injEq, Prod.mk.injEq] at h2
  obtain ⟨rfl, rfl⟩ := h2
  rw [hinfo.invFin.content_eq]
  exact hl.pub i hi

/-- **C10.** If `is_empty()` returned `false`, the first position is initialised; `is_empty()` does not return `true`
after a call has reported a positive length. -/
theorem C10_is_empty (hm : InitMem m l) (h : Reach m l κ) {c : Cid} :
    (κ.Returned c .isEmpty (.bool false) → (κ.content 0).isSome) ∧
    (∀ d op x n, κ.Returned d op x → op.ReportsLen n x → 0 < n → κ.Before d c →
      ¬ κ.Returned c .isEmpty (.bool true)) := by
  have hI := h.inv hm
  constructor
  · rintro ⟨ct, st, et, fin, hc⟩
    obtain ⟨d, hinfo⟩ := hI.returned hc
    obtain ⟨n, hl, hx, -⟩ := hinfo.out
    simp only [Ret.bool.injEq] at hx
    have hn : 0 < n := by
      rcases n with _ | n
      · simp at hx
      · omega
    rw [hI.content_eq]
    exact hinfo.ev2.pub 0 (hl.pub 0 hn)
  · rintro d op x n ⟨ct, st, et, fin, hd⟩ hrep hn hb ⟨ct', st', et', fin', hc⟩
    obtain ⟨dd, hinfo⟩ := hI.returned hd
    have hl := (hinfo.lenOK hrep).1
    obtain ⟨dd', hinfo'⟩ := hI.returned hc
    obtain ⟨n', hl', hx, -⟩ := hinfo'.out
    simp only [Ret.bool.injEq] at hx
    have hn' : n' = 0 := by simpa using hx.symm
    obtain ⟨r1, r2, h1, h2, hb⟩ := hb
    rw [hd] at h1; rw [hc] at h2
    simp only [Option.some.injEq] at h1 h2
    subst h1 h2
    obtain ⟨t, fin1, he, hev⟩ := hI.before hd hc hb
    simp only [Status.ended, Option.some.injEq, Prod.mk.injEq] at he
    obtain ⟨rfl, rfl⟩ := he
    have h1 := hl.written
    have h2 := hl'.low
    have h3 := hev.written
    simp only at h3
    omega

/-! ## C11 -/

/-- **C11.** Reported lengths never decrease over non-overlapping calls. -/
theorem C11_monotone (hm : InitMem m l) (h : Reach m l κ) {c d : Cid} {op1 op2 : Op α β} {x1 x2 : Ret α β}
    {n1 n2 : Nat} (h1 : κ.Returned c op1 x1) (r1 : op1.ReportsLen n1 x1)
    (h2 : κ.Returned d op2 x2) (r2 : op2.ReportsLen n2 x2) (hb : κ.Before c d) : n1 ≤ n2 := by
  have hI := h.inv hm
  obtain ⟨ct, st, et, fin, hc⟩ := h1
  obtain ⟨ct', st', et', fin', hd⟩ := h2
  obtain ⟨e, hinfo⟩ := hI.returned hc
  obtain ⟨e', hinfo'⟩ := hI.returned hd
  have hl := (hinfo.lenOK r1).1
  have hl' := (hinfo'.lenOK r2).1
  obtain ⟨q1, q2, g1, g2, hb⟩ := hb
  rw [hc] at g1; rw [hd] at g2
  simp only [Option.some.injEq] at g1 g2
  subst g1 g2
  obtain ⟨t, fin1, he, hev⟩ := hI.before hc hd hb
  simp only [Status.ended, Option.some.injEq, Prod.mk.injEq] at he
  obtain ⟨rfl, rfl⟩ := he
  have h1 := hl.written
  have h2 := hl'.low
  have h3 := hev.written
  simp only at h3
  omega

/-! ## C12 -/

/-- **C12.** If all positions below `k` were initialised when the call that reports the length was invoked, it
reports at least `k`; unless at some moment of the call another call, overlapping with it, was accessing (had
locked) the element at the reported position. -/
theorem C12_lower_bound {n : Nat} {κ : Nat → Cfg α β} (hm : InitMem m l) (h : Exec m l n κ) {c : Cid} {op : Op α β}
    {x : Ret α β} {len k : Nat} {mem : Mem α} (hr : (κ n).Returned c op x) (hn : op.ReportsLen len x)
    (hs : (κ n).AtStart c mem) (hk : ∀ i, i < k → (mem.content i).isSome) :
    k ≤ len ∨ ∃ t d op', (κ n).During c t ∧ d ≠ c ∧ (κ n).Overlap c d ∧ (κ t).Running d op' ∧
      (κ t).w.mem.st len = .RESERVED := by
  have hI := h.inv hm (Nat.le_refl n)
  obtain ⟨ct, st, et, fin, hc⟩ := hr
  obtain ⟨dd, hinfo⟩ := hI.returned hc
  have hl := (hinfo.lenOK hn).1
  obtain ⟨r, hr, rfl⟩ := hs
  rw [hc] at hr
  simp only [Option.some.injEq] at hr
  subst hr
  rcases hl.lower k (fun i hi => by rw [← hinfo.invStart.content_eq]; exact hk i hi) with hle | ⟨d, hd⟩
  · exact .inl hle
  · exact .inr (h.busy_overlap hm (hinfo.ev2.trace.subset hd))

/-- **C12.** With no other call running, the reported length is exactly the number of leading initialised positions. -/
theorem C12_exact {n : Nat} {κ : Nat → Cfg α β} (hm : InitMem m l) (h : Exec m l n κ) {c : Cid} {op : Op α β}
    {x : Ret α β} {len : Nat} {mem : Mem α} {vs : List α} (hr : (κ n).Returned c op x) (hn : op.ReportsLen len x)
    (ha : (κ n).Alone c) (hs : (κ n).AtStart c mem) (hv : mem.Leading vs) : len = vs.length := by
  have hI := h.inv hm (Nat.le_refl n)
  have hlow := C12_lower_bound hm h hr hn hs (k := vs.length) (fun i hi => by
    rw [hv.1 i hi]; simp [hi])
  have hle : vs.length ≤ len := by
    rcases hlow with hle | ⟨t, d, op', -, hne, hov, -⟩
    · exact hle
    · exact absurd hov (ha d hne)
  obtain ⟨ct, st, et, fin, hc⟩ := hr
  obtain ⟨dd, hinfo⟩ := hI.returned hc
  obtain ⟨hl, hsz, -⟩ := hinfo.lenOK hn
  obtain ⟨r, hr, rfl⟩ := hs
  rw [hc] at hr
  simp only [Option.some.injEq] at hr
  subst hr
  rcases Nat.lt_or_ge vs.length len with hlt | hge
  · exfalso
    have hpub := hl.pub _ hlt
    obtain ⟨e1, e2, e3, e4, e5⟩ := h.ends hm hc (et := et) (fin := fin) rfl
    simp only at e1 e3
    have hnone : (κ et).content vs.length = none := by
      refine h.window_none hm hc (s := ct) (Nat.le_refl _) (by omega) e5 (by omega) ?_ ?_
      · show (κ ct).w.mem.content _ = none
        rw [← e3]; exact hv.2
      · intro d op' hd hov
        by_cases hdc : d = c
        · subst hdc
          have := Cfg.Called.unique (op := op') (op' := op) hd ⟨ct, st, _, hc⟩
          rw [← this]; exact hsz
        · exact absurd hov (ha d hdc)
    rw [← hinfo.invFin.content_eq, e4] at hpub
    have hpub : ((κ et).content vs.length).isSome := hpub
    rw [hnone] at hpub
    cases hpub
  · omega

/-- In every reachable configuration the leading initialised positions hold some list of values. -/
theorem C12_leading_exists (hm : InitMem m l) (h : Reach m l κ) : ∃ vs, κ.w.mem.Leading vs := by
  have hI := h.inv hm
  have hfin : ∃ k, κ.content k = none := by
    refine ⟨κ.w.mem.cap, ?_⟩
    rw [hI.content_eq]
    rcases hv : κ.w.spec.val κ.w.mem.cap with _ | v
    · rfl
    · have := hI.inv.pub_cap κ.w.mem.cap (by simp [hv]); omega
  have key : ∀ k, (∃ vs, κ.w.mem.Leading vs) ∨ ∃ vs : List α, vs.length = k ∧ ∀ i, i < k → κ.w.mem.content i = vs[i]? := by
    intro k
    induction k with
    | zero => exact .inr ⟨[], rfl, fun i hi => absurd hi (by omega)⟩
    | succ k ih =>
      rcases ih with ih | ⟨vs, hlen, hvs⟩
      · exact .inl ih
      · rcases hv : κ.w.mem.content k with _ | v
        · exact .inl ⟨vs, by rw [hlen]; exact hvs, by rw [hlen]; exact hv⟩
        · refine .inr ⟨vs ++ [v], by simp [hlen], fun i hi => ?_⟩
          rcases Nat.lt_or_ge i k with hlt | hge
          · rw [hvs i hlt, List.getElem?_append_left (by omega)]
          · have : i = k := by omega
            subst this
            rw [hv, List.getElem?_append_right (by omega), hlen]; simp
  obtain ⟨k, hk⟩ := hfin
  rcases key (k + 1) with h1 | ⟨vs, hlen, hvs⟩
  · exact h1
  · have := hvs k (by omega)
    rw [show κ.w.mem.content k = none from hk, List.getElem?_eq_getElem (by omega)] at this
    cases this

section examples
open Demo

/-- `push 7`, then `len()`, then another `push` and `len()`. -/
def Demo.lens : List (Choice Nat Nat) :=
  [.call (.push 7)] ++ go 1 10 ++ [.call .len] ++ go 2 6 ++ [.call (.push 8)] ++ go 3 10 ++ [.call .len] ++ go 4 6

example : Possible [10, 20] 2 8 lens ∧ (after [10, 20] 2 8 lens).Returned 2 .len (.nat 3) ∧
    (after [10, 20] 2 8 lens).Returned 4 .len (.nat 4) ∧ (after [10, 20] 2 8 lens).Before 2 4 ∧
    (Op.len : Op Nat Nat).ReportsLen 3 (.nat 3) :=
  ⟨by unfold Possible; rfl, returned_of rfl rfl, returned_of rfl rfl, before_of rfl rfl (by decide), rfl⟩

/-- The deviation: two completed pushes, but `len()` meets a `get_cloned(2)` holding position 2 and reports 2 although
positions 0 to 3 are initialised before it is invoked. -/
def Demo.lenMisses : List (Choice Nat Nat) :=
  [.call (.push 7), .call (.push 8)] ++ go 1 10 ++ go 2 10 ++ [.call (.getCloned 2)] ++ go 3 4 ++
  [.call .len] ++ go 4 6

example : Possible [10, 20] 2 8 lenMisses ∧ (after [10, 20] 2 8 lenMisses).Returned 4 .len (.nat 2) ∧
    (after [10, 20] 2 8 lenMisses).content 3 = some 8 ∧ (after [10, 20] 2 8 lenMisses).w.mem.st 2 = .RESERVED :=
  ⟨by unfold Possible; rfl, returned_of rfl rfl, rfl, rfl⟩

end examples

end Verif
