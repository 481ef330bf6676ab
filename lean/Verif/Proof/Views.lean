import Verif.Spec.Views
import Verif.Proof.EventTime
import Verif.Proof.Fair

/-!
# Undisturbed calls

Helper file (no property statements).
-/

namespace Verif

variable {α β : Type} {m : Mem α} {l : List α} {n : Nat} {κ : Nat → Cfg α β}

/-! ## Who locks -/

/-- Only calls of functions that lock elements hold elements. -/
theorem Exec.holder_locks (h : Exec m l n κ) (hm : InitMem m l) {i : Nat} {d : Cid} :
    ∀ s, s ≤ n → (κ s).w.holder i = some d → ∃ op, (κ s).Called d op ∧ op.Locks := by
  intro s
  induction s with
  | zero => intro _ hh; rw [h.init] at hh; cases hh
  | succ s ih =>
    intro hs hh
    rcases (h.next s (by omega)).world with hw | ⟨c, r, a, again, k, b, hc, hr, he⟩ | ⟨-, -, -, -, -, hw⟩
    · rw [hw] at hh
      obtain ⟨op, h1, h2⟩ := ih (by omega) hh
      exact ⟨op, h.called_mono hm (by omega) hs h1, h2⟩
    · have hhold : (κ (s + 1)).w.holder = a.holderNext c (κ s).w b := by
        unfold World.exec at he
        split at he
        · cases he
        · simp only [Option.some.injEq, Prod.mk.injEq] at he
          obtain ⟨h1, rfl⟩ := he
          rw [← h1]
      by_cases hold : (κ s).w.holder i = some d
      · obtain ⟨op, h1, h2⟩ := ih (by omega) hold
        exact ⟨op, h.called_mono hm (by omega) hs h1, h2⟩
      · rw [hhold] at hh
        have hdc : d = c ∧ ∃ j e nw o f, a = .stCas j e nw o f := by
          cases a with
          | stCas j e nw o f =>
            simp only [Act.holderNext] at hh
            split at hh
            · rw [upd_apply] at hh
              split at hh
              · simp only [Option.some.injEq] at hh
                exact ⟨hh.symm, _, _, _, _, _, rfl⟩
              · exact absurd hh hold
            · exact absurd hh hold
          | stStore j e o =>
            simp only [Act.holderNext] at hh
            rw [upd_apply] at hh
            split at hh
            · cases hh
            · exact absurd hh hold
          | _ => exact absurd hh hold
        obtain ⟨rfl, j, e, nw, o, f, rfl⟩ := hdc
        obtain ⟨op, ct, st, ss⟩ := r
        refine ⟨op, h.called_mono hm (by omega) hs ⟨ct, st, ss, hc⟩, ?_⟩
        by_contra hop
        exact ((h.reach (by omega : s ≤ n)).noLock hc hr hop).1 j e nw o f rfl
    · rw [hw] at hh
      obtain ⟨op, h1, h2⟩ := ih (by omega) hh
      exact ⟨op, h.called_mono hm (by omega) hs h1, h2⟩

/-- A call found an element locked by a call of a function that locks elements and that overlaps with it. -/
theorem Exec.busy_locks (h : Exec m l n κ) (hm : InitMem m l) {c d : Cid} {i : Nat}
    (hb : Ev.busy c i d ∈ (κ n).w.trace) :
    d ≠ c ∧ (κ n).Overlap c d ∧ ∃ op, (κ n).Called d op ∧ op.Locks := by
  have hI := h.inv hm (Nat.le_refl n)
  obtain ⟨t1, t2, ht⟩ := List.append_of_mem hb
  obtain ⟨t, c', r, a, again, kk, b, htn, h1, hcr, hrun, hx, hev, h2⟩ := h.event ht
  obtain ⟨rfl, hhold⟩ := busy_event hev
  obtain ⟨r1, r2, hr1, hr2, hb1, hb2⟩ := hI.busy _ _ _ hb
  have hne : c ≠ d := (hI.inv.legal t1 _ t2 ht).2
  refine ⟨Ne.symm hne, ⟨⟨r1, hr1⟩, ⟨r2, hr2⟩, ?_, ?_⟩, ?_⟩
  · rintro ⟨a, b, ha, hb, hh⟩
    rw [hr1] at ha; rw [hr2] at hb
    simp only [Option.some.injEq] at ha hb
    subst ha hb
    exact hb1 hh
  · rintro ⟨a, b, ha, hb, hh⟩
    rw [hr2] at ha; rw [hr1] at hb
    simp only [Option.some.injEq] at ha hb
    subst ha hb
    exact hb2 hh
  · obtain ⟨op, k1, k2⟩ := h.holder_locks hm t (by omega) hhold
    exact ⟨op, h.called_mono hm (by omega) (Nat.le_refl n) k1, k2⟩

theorem events_cid {w : World α} {c : Cid} {a : Act α} {b : a.Resp} {e : Ev α} (h : e ∈ a.events c w b) : e.cid = c := by
  cases a <;> simp only [Act.events] at h <;> repeat' split at h
  all_goals (simp only [List.mem_singleton, List.not_mem_nil] at h)
  all_goals (subst h; rfl)

/-! ## Lengths -/

/-- The written counter only increases between calls that do not overlap. -/
theorem CfgInv.before_written {σ₀ : SpecSt α} {κ : Cfg α β} (h : CfgInv σ₀ κ) {d c : Cid} {op : Op α β} {x : Ret α β}
    {k : Nat} {r : Rec α β} (hb : κ.Before d c) (hr : κ.Returned d op x) (hl : op.ReportsLen k x)
    (hc : κ.calls c = some r) : k ≤ r.start.mem.written := by
  obtain ⟨ct, st, et, fin, hd⟩ := hr
  obtain ⟨dd, hinfo⟩ := h.returned hd
  obtain ⟨r1, r2, h1, h2, t, f, h3, h4⟩ := hb
  rw [hd] at h1; rw [hc] at h2
  simp only [Option.some.injEq] at h1 h2
  subst h1 h2
  simp only [Status.ended, Option.some.injEq, Prod.mk.injEq] at h3
  obtain ⟨rfl, rfl⟩ := h3
  obtain ⟨t, f, h5, hev⟩ := h.before hd hc ⟨et, fin, rfl, h4⟩
  simp only [Status.ended, Option.some.injEq, Prod.mk.injEq] at h5
  obtain ⟨rfl, rfl⟩ := h5
  exact Nat.le_trans (hinfo.lenOK hl).1.written hev.written

/-- An undisturbed call sees the exact length. -/
theorem Exec.holding_len (h : Exec m l n κ) (hm : InitMem m l) {c : Cid} {r : Rec α β} {et : Nat} {fin : World α}
    {vs : List α} (hh : (κ n).Holding c vs) (hc : (κ n).calls c = some r) (he : r.status.ended = some (et, fin))
    (hsz : r.op.size = none) {len : Nat} (hl : LenOK c r.start len fin) : len = vs.length := by
  have hI := h.inv hm (Nat.le_refl n)
  obtain ⟨e1, e2, e3, e4, e5⟩ := h.ends hm hc he
  obtain ⟨⟨⟨mem, ⟨r', hr', rfl⟩, hv⟩, hq⟩, hset⟩ := hh
  rw [hc] at hr'
  simp only [Option.some.injEq] at hr'
  subst hr'
  have hIs := h.inv hm (by omega : r.callT ≤ n)
  have hIe := h.inv hm (by omega : et ≤ n)
  apply Nat.le_antisymm
  · rcases Nat.lt_or_ge vs.length len with hlt | hge
    · exfalso
      have hpub := hl.pub _ hlt
      have hnone : (κ et).content vs.length = none := by
        refine h.window_none hm hc (s := r.callT) (Nat.le_refl _) (by omega) e5 (by omega) ?_ ?_
        · show (κ r.callT).w.mem.content _ = none
          rw [← e3]; exact hv.2
        · intro d op' hd hov
          by_cases hdc : d = c
          · subst hdc
            have := Cfg.Called.unique (op := op') (op' := r.op) hd ⟨r.callT, r.start, r.status, hc⟩
            rw [← this]; exact hsz
          · exact (hq d op' hdc hov hd).1
      rw [hIe.content_eq, ← e4] at hnone
      rw [hnone] at hpub
      cases hpub
    · exact hge
  · rcases hset with hset | ⟨d, op, x, hb, hr, hrl⟩
    · rcases hl.lower vs.length (fun i hi => by
          rw [e3, ← hIs.inv.content_eq, ← e3, hv.1 i hi]; simp [hi]) with hle | ⟨d, hd⟩
      · exact hle
      · exfalso
        have hmem : Ev.busy c len d ∈ (κ n).w.trace := by
          rw [e4] at hd
          exact (h.evolves hm (by omega : et ≤ n) (Nat.le_refl n)).trace.subset hd
        obtain ⟨k1, k2, op, k3, k4⟩ := h.busy_locks hm hmem
        exact hset d op k1 k2 k3 k4
    · exact Nat.le_trans (hI.before_written hb hr hrl hc) hl.low

theorem Exec.observes (h : Exec m l n κ) (hm : InitMem m l) {c : Cid} {r : Rec α β} {et : Nat} {fin : World α}
    (hc : (κ n).calls c = some r) (he : r.status.ended = some (et, fin))
    (hsz : r.op.size = none) {len : Nat} (hl : LenOK c r.start len fin) : (κ n).Observes c len := by
  refine ⟨?_, fun vs hh => h.holding_len hm hh hc he hsz hl⟩
  rintro mem ⟨r', t, w, hr', he', rfl⟩ i hi
  rw [hc] at hr'
  simp only [Option.some.injEq] at hr'
  subst hr'
  rw [he] at he'
  simp only [Option.some.injEq, Prod.mk.injEq] at he'
  obtain ⟨rfl, rfl⟩ := he'
  obtain ⟨e1, e2, e3, e4, e5⟩ := h.ends hm hc he
  have hIe := h.inv hm (by omega : et ≤ n)
  rw [e4, hIe.inv.content_eq, ← e4]
  exact hl.pub i hi

/-! ## Reading -/

theorem reads_split {c : Cid} : ∀ {a : Nat} {vs : List α} {j : Nat} {v : α}, vs[j]? = some v →
    ∃ d1 d2, reads c a vs = d1 ++ Ev.read c (a + j) v :: d2
  | a, [], j, v, h => by simp at h
  | a, x :: vs, 0, v, h => by
    simp only [List.getElem?_cons_zero, Option.some.injEq] at h
    subst h
    exact ⟨[], reads c (a + 1) vs, rfl⟩
  | a, x :: vs, j + 1, v, h => by
    obtain ⟨d1, d2, hd⟩ := reads_split (c := c) (a := a + 1) (vs := vs) (j := j) (v := v) (by simpa using h)
    refine ⟨.read c a x :: d1, d2, ?_⟩
    rw [reads, hd, show a + 1 + j = a + (j + 1) by omega]
    rfl

/-- Each value that a call reads was the content of that position at some moment of the call. -/
theorem Exec.read_genuine (h : Exec m l n κ) (hm : InitMem m l) {c : Cid} {a : Nat} {xs : List α}
    (hd : dataOf c (κ n).w.trace = reads c a xs) {j : Nat} {v : α} (hj : xs[j]? = some v) :
    ∃ t, t < n ∧ (κ n).During c t ∧ (κ t).content (a + j) = some v := by
  obtain ⟨d1, d2, hs⟩ := reads_split (c := c) (a := a) hj
  rw [hs] at hd
  obtain ⟨t, h1, h2, h3, h4, h5, h6⟩ := h.data_time hm hd
  refine ⟨t, h1, h4, ?_⟩
  rw [(h.inv hm (by omega : t ≤ n)).content_eq]
  exact h5

theorem Exec.read_keeps (h : Exec m l n κ) (hm : InitMem m l) {c : Cid} {r : Rec α β} (hc : (κ n).calls c = some r)
    {a : Nat} {xs : List α} (hd : dataOf c (κ n).w.trace = reads c a xs) {j : Nat} {v : α} (hj : xs[j]? = some v)
    (hq : ∀ d op, (κ n).Called d op → (κ n).Overlap c d → ¬ op.MayWrite (a + j))
    {v0 : α} (h0 : r.start.mem.content (a + j) = some v0) : v = v0 := by
  obtain ⟨t, h1, ⟨⟨t0, ⟨r', hr', rfl⟩, h2⟩, h3⟩, h4⟩ := h.read_genuine hm hd hj
  rw [hc] at hr'
  simp only [Option.some.injEq] at hr'
  subst hr'
  obtain ⟨g1, g2, g3, g4, g5⟩ := h.called_at hm hc
  have := h.window_keep hm hc (s := r.callT) (s' := t) (i := a + j) (v := v0) (Nat.le_refl _) h2
    (fun et fin he => h3 et ⟨r, fin, hc, he⟩) (by omega)
    (by show (κ r.callT).w.mem.content _ = _; rw [← g3]; exact h0) hq
  rw [h4] at this
  simpa using this

/-- An undisturbed reading call reads exactly the elements of its slice. -/
theorem Exec.viewing_reads (h : Exec m l n κ) (hm : InitMem m l) {c : Cid} {r : Rec α β} {s : Slc} {vs xs : List α}
    (hc : (κ n).calls c = some r) (hop : r.op.NoWrite) (hv : (κ n).Viewing c s vs)
    (hd : dataOf c (κ n).w.trace = reads c s.a xs) (hlen : xs.length ≤ s.len) : xs = vs.take xs.length := by
  obtain ⟨h1, ⟨mem, ⟨r', hr', rfl⟩, h2⟩, h3⟩ := hv
  rw [hc] at hr'
  simp only [Option.some.injEq] at hr'
  subst hr'
  refine List.ext_getElem? fun j => ?_
  rcases Nat.lt_or_ge j xs.length with hj | hj
  · rw [List.getElem?_take_of_lt hj, List.getElem?_eq_getElem hj]
    obtain ⟨v0, hv0⟩ : ∃ v0, vs[j]? = some v0 := ⟨vs[j]'(by omega), List.getElem?_eq_getElem _⟩
    rw [hv0]
    congr 1
    refine h.read_keeps hm hc hd (List.getElem?_eq_getElem hj) ?_ ((h2 j (by omega)).trans hv0)
    intro d op hcd hov
    by_cases hdc : d = c
    · subst hdc
      have := Cfg.Called.unique (op := op) (op' := r.op) hcd ⟨r.callT, r.start, r.status, hc⟩
      rw [← this]; exact hop _
    · exact h3 d op j hdc hov hcd (by omega)
  · rw [List.getElem?_eq_none hj, List.getElem?_eq_none (by simp; omega)]

theorem Cfg.Holding.viewing {κ : Cfg α β} {c : Cid} {vs : List α} (h : κ.Holding c vs) :
    κ.Viewing c ⟨0, vs.length⟩ vs := by
  obtain ⟨⟨⟨mem, h1, h2⟩, h3⟩, h4⟩ := h
  exact ⟨rfl, ⟨mem, h1, fun j hj => by rw [Nat.zero_add]; exact h2.1 j hj⟩, fun d op j hd ho hc _ => (h3 d op hd ho hc).2 _⟩

/-- An undisturbed reading call of the vector reads exactly its elements. -/
theorem Exec.holding_reads (h : Exec m l n κ) (hm : InitMem m l) {c : Cid} {r : Rec α β} {vs xs : List α}
    (hc : (κ n).calls c = some r) (hop : r.op.NoWrite) (hv : (κ n).Holding c vs)
    (hd : dataOf c (κ n).w.trace = reads c 0 xs) (hlen : xs.length ≤ vs.length) : xs = vs.take xs.length :=
  h.viewing_reads hm hc hop hv.viewing hd hlen

/-! ## Ranges -/

theorem pick_aux {γ : Type} (lo hi : Nat) : ∀ (xs : List γ) (k : Nat),
    ((xs.zipIdx k).filter fun p => decide (lo ≤ p.2) && decide (p.2 < hi)).map Prod.fst =
      (xs.take (hi - k)).drop (lo - k)
  | [], k => by simp
  | x :: xs, k => by
    have ih := pick_aux lo hi xs (k + 1)
    rw [List.zipIdx_cons, List.filter_cons]
    by_cases h1 : lo ≤ k
    · by_cases h2 : k < hi
      · have e1 : hi - k = (hi - (k + 1)) + 1 := by omega
        have e2 : lo - k = 0 := by omega
        have e3 : lo - (k + 1) = 0 := by omega
        simp [h1, h2, ih, e1, e2, e3]
      · have e1 : hi - k = 0 := by omega
        have e2 : hi - (k + 1) = 0 := by omega
        simp [h2, ih, e1, e2]
    · by_cases h2 : k < hi
      · have e1 : hi - k = (hi - (k + 1)) + 1 := by omega
        have e2 : lo - k = (lo - (k + 1)) + 1 := by omega
        simp [h1, ih, e1, e2]
      · have e1 : hi - k = 0 := by omega
        have e2 : hi - (k + 1) = 0 := by omega
        simp [h2, ih, e1, e2]

theorem pick_eq {γ : Type} (r : Rng) (xs : List γ) :
    pick r xs = (xs.take (rangeLimits r xs.length).2).drop (rangeLimits r xs.length).1 := by
  have key : ∀ lo hi, (∀ i, i < xs.length → (r.Has i = (decide (lo ≤ i) && decide (i < hi)))) →
      pick r xs = (xs.take hi).drop lo := by
    intro lo hi hh
    have := pick_aux lo hi xs 0
    simp only [Nat.sub_zero] at this
    rw [← this, pick]
    congr 1
    apply List.filter_congr
    rintro ⟨x, i⟩ hx
    have := List.mem_zipIdx hx
    exact hh i (by omega)
  apply key
  intro i hi
  obtain ⟨lo, hi'⟩ := r
  unfold Rng.Has rangeLimits
  rw [Bool.eq_iff_iff]
  cases lo <;> cases hi' <;> simp <;> omega

theorem rangeLimits_le (r : Rng) (len : Nat) :
    (rangeLimits r len).1 ≤ (rangeLimits r len).2 ∧ (rangeLimits r len).2 ≤ len := by
  unfold rangeLimits
  exact ⟨Nat.min_le_right _ _, Nat.min_le_right _ _⟩

theorem take_drop_range (a b len : Nat) (h : a ≤ b) (hb : b ≤ len) (k : Nat) :
    (((List.range len).map (k + ·)).take b).drop a = (List.range (b - a)).map (k + a + ·) := by
  apply List.ext_getElem
  · simp; omega
  · intro i h1 h2
    simp; omega

theorem view_slice (s : Slc) (r : Rng) : (s.slice r).view = pick r s.view := by
  rw [pick_eq]
  have := rangeLimits_le r s.len
  simp only [Slc.view, List.length_map, List.length_range]
  rw [take_drop_range _ _ _ this.1 this.2]
  rfl

theorem view_range (n : Nat) : (⟨0, n⟩ : Slc).view = List.range n := by
  simp [Slc.view]

theorem view_eq (s : Slc) : s.view = List.range' s.a s.len := by
  rw [Slc.view, List.range'_eq_map_range]

/-! ## Chunks -/

theorem numChunks_eq (len k : Nat) (hk : 0 < k) : numChunks len k = (len + k - 1) / k := by
  have h1 := Nat.div_add_mod len k
  have h2 := Nat.mod_lt len hk
  have hq : len / k * k = k * (len / k) := Nat.mul_comm _ _
  generalize hqq : len / k = q at *
  generalize hr : len % k = r at *
  unfold numChunks
  simp only [hqq, hq]
  by_cases hr0 : r = 0
  · rw [if_neg (by omega)]
    symm
    rw [Nat.div_eq_iff hk]
    rw [Nat.mul_comm q k]
    omega
  · rw [if_pos (by omega)]
    symm
    rw [Nat.div_eq_iff hk]
    rw [Nat.mul_comm (q + 1) k, Nat.mul_add]
    omega

theorem numChunks_lt {len k i : Nat} (hk : 0 < k) (hi : i < numChunks len k) : i * k < len := by
  rw [numChunks_eq len k hk, Nat.lt_div_iff_mul_lt hk] at hi
  omega

theorem le_numChunks {len k : Nat} (hk : 0 < k) : len ≤ numChunks len k * k := by
  rw [numChunks_eq len k hk]
  have := Nat.div_add_mod (len + k - 1) k
  have := Nat.mod_lt (len + k - 1) hk
  have hq : (len + k - 1) / k * k = k * ((len + k - 1) / k) := Nat.mul_comm _ _
  omega

/-- The chunks of a slice. -/
theorem chunk_slice (s : Slc) {k i : Nat} (hk : 0 < k) (hi : i < numChunks s.len k) :
    s.slice (chunkRange s.len k i) = ⟨s.a + i * k, min k (s.len - i * k)⟩ := by
  have h1 := numChunks_lt hk hi
  have h2 := le_numChunks (len := s.len) hk
  have hlast : i = numChunks s.len k - 1 → s.len ≤ i * k + k := by
    intro h
    have : i + 1 = numChunks s.len k := by omega
    rw [← this, Nat.add_mul] at h2
    omega
  have hnl : i ≠ numChunks s.len k - 1 → i * k + k < s.len := by
    intro h
    have := numChunks_lt (len := s.len) (i := i + 1) hk (by omega)
    rw [Nat.add_mul] at this
    omega
  have hrem : s.len - s.len / k * k = s.len % k := by
    have := Nat.div_add_mod s.len k
    have hq : s.len / k * k = k * (s.len / k) := Nat.mul_comm _ _
    omega
  have hmod : i = numChunks s.len k - 1 → 0 < s.len % k → s.len % k = s.len - i * k := by
    intro h h0
    have h3 := hlast h
    have h4 : s.len - i * k < k := by
      rcases Nat.lt_or_ge (s.len - i * k) k with hlt | hge
      · exact hlt
      · have : s.len = k * (i + 1) := by rw [Nat.mul_add, Nat.mul_comm k i]; omega
        rw [this, Nat.mul_mod_right] at h0
        omega
    have h5 : s.len = s.len - i * k + i * k := by omega
    conv_lhs => rw [h5]
    rw [Nat.add_mul_mod_self_right, Nat.mod_eq_of_lt h4]
  have hmod0 : i = numChunks s.len k - 1 → s.len % k = 0 → s.len = i * k + k := by
    intro h h0
    have h3 := hlast h
    obtain ⟨q, hq⟩ := Nat.dvd_of_mod_eq_zero h0
    rcases Nat.lt_or_ge i q with hlt | hge
    · have := Nat.mul_le_mul_left k (show i + 1 ≤ q by omega)
      rw [Nat.mul_add, Nat.mul_comm k i] at this
      omega
    · have := Nat.mul_le_mul_left k hge
      rw [Nat.mul_comm k i] at this
      omega
  unfold Slc.slice chunkRange Rng.co rangeLimits
  simp only [hrem]
  split
  · rename_i hc
    have := hmod hc.1 hc.2
    congr 1 <;> omega
  · rename_i hc
    by_cases h3 : i = numChunks s.len k - 1
    · have := hmod0 h3 (by omega)
      congr 1 <;> omega
    · have := hnl h3
      congr 1 <;> omega

theorem chunks_prefix (a len k : Nat) : ∀ j, (∀ i, i < j → i * k < len) →
    (List.range j).flatMap (fun i => (⟨a + i * k, min k (len - i * k)⟩ : Slc).view) =
      (⟨a, min (j * k) len⟩ : Slc).view
  | 0, _ => by simp [Slc.view]
  | j + 1, h => by
    rw [List.range_succ, List.flatMap_append, chunks_prefix a len k j fun i hi => h i (by omega)]
    have hj := h j (by omega)
    have e1 : min (j * k) len = j * k := by omega
    have e2 : min ((j + 1) * k) len = j * k + min k (len - j * k) := by rw [Nat.add_mul]; omega
    simp only [e1, e2, Slc.view, List.flatMap_cons, List.flatMap_nil, List.append_nil]
    rw [List.range_add, List.map_append, List.map_map]
    congr 1
    apply List.map_congr_left
    intro x _
    simp; omega

theorem chunks_flatten (s : Slc) {k : Nat} (hk : 0 < k) :
    (((List.range (numChunks s.len k)).map fun i => s.slice (chunkRange s.len k i)).map Slc.view).flatten = s.view := by
  rw [List.map_map, ← List.flatMap_def]
  have h1 := chunks_prefix s.a s.len k (numChunks s.len k) fun i hi => numChunks_lt hk hi
  have h2 := le_numChunks (len := s.len) hk
  rw [Nat.min_eq_right h2] at h1
  refine Eq.trans ?_ h1
  simp only [List.flatMap_def]
  congr 1
  apply List.map_congr_left
  intro i hi
  simp only [Function.comp_apply]
  rw [chunk_slice s hk (List.mem_range.1 hi)]

theorem chunked (s : Slc) {k : Nat} (hk : 0 < k) :
    Chunked k s.view ((List.range (numChunks s.len k)).map fun i => s.slice (chunkRange s.len k i)) := by
  have hlen : ∀ t : Slc, t.view.length = t.len := fun t => by simp [Slc.view]
  refine ⟨chunks_flatten s hk, ?_, ?_, ?_⟩
  · intro t ht
    rw [← List.map_dropLast] at ht
    obtain ⟨i, hi, rfl⟩ := List.mem_map.1 ht
    have hi' : i + 1 < numChunks s.len k := by
      obtain ⟨j, hj⟩ | h0 : (∃ j, numChunks s.len k = j + 1) ∨ numChunks s.len k = 0 := by
        rcases numChunks s.len k with _ | j
        · exact .inr rfl
        · exact .inl ⟨j, rfl⟩
      · rw [hj, List.range_succ, List.dropLast_concat, List.mem_range] at hi
        omega
      · rw [h0] at hi; simp at hi
    have := numChunks_lt hk hi'
    rw [Nat.add_mul] at this
    rw [hlen, chunk_slice s hk (by omega)]
    simp only; omega
  · intro t ht
    rw [List.getLast?_map] at ht
    simp only [Option.mem_def, Option.map_eq_some_iff] at ht
    obtain ⟨i, hi, rfl⟩ := ht
    have hi' : i < numChunks s.len k := List.mem_range.1 (List.mem_of_getLast? hi)
    have := numChunks_lt hk hi'
    rw [hlen, chunk_slice s hk hi']
    simp only; omega
  · simp [numChunks_eq _ _ hk, hlen]

end Verif
