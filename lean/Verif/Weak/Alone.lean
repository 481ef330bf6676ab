import Verif.Weak.Published
import Verif.Weak.SpecAlone
import Verif.Proof.SoloRun

/-!
# A call that knows everything and runs alone

Helper file (no property statements): such a call reads the newest messages only, so that it acts as in the sequentially consistent
model.
-/

namespace Verif.Weak

variable {α β γ : Type}

/-- Somebody who knows everything (`V`) finds the memory `M`. -/
structure Rel (m : WMem α) (V : View) (M : Mem α) : Prop where
  known : Complete m V
  reserved : M.reserved = lastVal m.res
  written : M.written = lastVal m.written
  cap : M.cap = lastVal m.cap
  alloc : M.alloc = m.alloc
  maxCap : M.maxCap = m.maxCap
  pol : M.pol = m.pol
  st : M.st = lastSt m
  val : M.val = m.val

theorem Complete.tells {m m' : WMem α} {V V' : View} (h : Complete m V) (ht : Tells m m' V V') : Complete m' V' where
  res := by have := ht.le.res; have := h.res; rcases ht.res with h1 | h1 <;> omega
  written := by have := ht.le.written; have := h.written; rcases ht.written with h1 | h1 <;> omega
  cap := by have := ht.le.cap; have := h.cap; rcases ht.cap with h1 | h1 <;> omega
  st i := by have := ht.le.st i; have := h.st i; rcases ht.st i with h1 | h1 <;> omega
  acc k hk := by
    rcases ht.acc k hk with h1 | h1
    · exact ht.le.seen k (h.acc k h1)
    · exact h1
  allocAt i k hk := by
    rcases ht.allocAt i k hk with h1 | h1
    · exact Nat.lt_of_lt_of_le (h.allocAt i k h1) ht.longer
    · exact h1

theorem Complete.sees {m : WMem α} {V : View} (h : Complete m V) (p : Access → Bool) : V.sees m.acc p = true := by
  rw [View.sees_iff]
  intro k a hk _
  exact h.acc k (lt_of_some hk)

theorem Complete.usable {m : WMem α} {V : View} (h : Complete m V) {i : Nat} (hi : i < m.alloc) : m.usable V i = true := by
  unfold WMem.usable
  rw [Bool.and_eq_true, decide_eq_true_eq]
  refine ⟨hi, ?_⟩
  split
  · next k hk => exact h.acc k (h.allocAt i k hk)
  · rfl

theorem not_middle {l : List (Msg γ)} {known t : Nat} (h : l.length ≤ known + 1) : place l known t ≠ .middle := by
  intro hp
  obtain ⟨h1, n, h2, -⟩ := place_middle hp
  have := lt_of_some h2
  omega

theorem lastSt_upd {m : WMem α} {i j : Nat} {q : Msg CState} :
    lastSt { m with st := upd m.st i (m.st i ++ [q]) } j = if j = i then q.val else lastSt m j := by
  unfold lastSt
  simp only [upd_apply]
  by_cases h : j = i
  · subst h; simp
  · simp [h]

variable {σ₀ : SpecSt α} {w w' : World α} {c : Cid} {raw : Bool} {m m' : WMem α} {V V' : View}

theorem Rel.usable (h : Rel m V w.mem) (hI : Verif.Inv σ₀ w) {i : Nat} (hi : i < w.mem.cap) : m.usable V i = true :=
  h.known.usable (by rw [← h.alloc]; exact Nat.lt_of_lt_of_le hi hI.cap_alloc)

/-- Nothing bad happens. -/
theorem Rel.not_bad (h : Rel m V w.mem) (hI : Verif.Inv σ₀ w) {a : Act α} (hp : Verif.Pre raw c w a) {b : a.Resp} (he : w.exec c a = some (w', b))
    (t : Nat) (x : Bad) : exec a t V m ≠ .bad x := by
  have hx := World.exec_mem he
  intro hb
  have hs := h.known.sees
  have cp : ∀ {i}, (w.spec.val i).isSome → m.usable V i = true := fun hv => h.usable hI (hI.pub_cap _ hv)
  cases a with
  | resFetchAdd k o =>
    simp only [exec] at hb
    split at hb
    · cases hb
    · next hm => exact not_middle h.known.res hm
    · cases hb
  | resLoad o => simp only [exec] at hb; split at hb <;> [split at hb; skip] <;> cases hb
  | writtenLoad o => simp only [exec] at hb; split at hb <;> [split at hb; skip] <;> cases hb
  | writtenFetchMax k o =>
    simp only [exec] at hb
    split at hb
    · cases hb
    · next hm => exact not_middle h.known.written hm
    · cases hb
  | capLoad o => simp only [exec] at hb; split at hb <;> [split at hb; skip] <;> cases hb
  | maxCapLoad => cases hb
  | growAlloc k => simp only [exec, hs, if_true] at hb; cases hb
  | growPublish o =>
    simp only [exec, hs, if_true] at hb
    split at hb
    · cases hb
    · next hm => exact not_middle h.known.cap hm
    · cases hb
  | stLoad i o =>
    simp only [exec, h.usable hI hp.1, if_true] at hb
    split at hb <;> [split at hb; skip] <;> cases hb
  | stCas i e s o f =>
    simp only [exec, h.usable hI hp.1, if_true] at hb
    split at hb
    · split at hb
      · split at hb
        · cases hb
        · next hm => exact not_middle (h.known.st i) hm
        · cases hb
      · split at hb <;> cases hb
    · cases hb
  | stStore i s o =>
    simp only [exec, h.usable hI hp.2.1, if_true] at hb
    split at hb
    · cases hb
    · next hm => exact not_middle (h.known.st i) hm
    · cases hb
  | valRead i =>
    simp only [exec, cp hp.1, hs, if_true] at hb
    split at hb
    · cases hb
    · next hn =>
      have := hI.val_eq i hp.1
      rw [h.val, hn] at this
      have hs1 := hp.1
      rw [← this] at hs1
      cases hs1
  | valWrite i v => simp only [exec, h.usable hI hp.1, hs, if_true] at hb; cases hb
  | valSwap i j =>
    have h1 := hI.pub_of_holder (i := i) (by rw [hp.2.1]; rfl)
    have h2 := hI.pub_of_holder (i := j) (by rw [hp.2.2]; rfl)
    simp only [exec, cp h1, cp h2, hs, Bool.and_self, if_true, if_neg hp.1] at hb
    split at hb
    · cases hb
    · next hn =>
      have e1 := hI.val_eq i h1
      have e2 := hI.val_eq j h2
      rw [h.val] at e1 e2
      obtain ⟨v1, hv1⟩ := Option.isSome_iff_exists.1 h1
      obtain ⟨v2, hv2⟩ := Option.isSome_iff_exists.1 h2
      exact hn v1 v2 (by rw [e1, hv1]) (by rw [e2, hv2])

/-- Something is possible. -/
theorem Rel.possible (h : Rel m V w.mem) (hin : V.In m) (hI : Verif.Inv σ₀ w) {a : Act α} (hp : Verif.Pre raw c w a) {b : a.Resp}
    (he : w.exec c a = some (w', b)) : ∃ t V' m' b', exec a t V m = .ok V' m' b' := by
  have hs := h.known.sees
  have cp : ∀ {i}, (w.spec.val i).isSome → m.usable V i = true := fun hv => h.usable hI (hI.pub_cap _ hv)
  obtain ⟨r1, hr1, -⟩ := newest_some hin.res
  obtain ⟨r2, hr2, -⟩ := newest_some hin.written
  obtain ⟨r3, hr3, -⟩ := newest_some hin.cap
  have nb := h.not_bad hI hp he
  cases a with
  | resFetchAdd k o => exact ⟨m.res.length - 1, _, _, _, by simp only [exec, place_newest hin.res, hr1]; rfl⟩
  | resLoad o =>
    have := hin.res
    exact ⟨m.res.length - 1, _, _, _, by simp only [exec, hr1]; rw [if_pos (by omega)]⟩
  | writtenLoad o =>
    have := hin.written
    exact ⟨m.written.length - 1, _, _, _, by simp only [exec, hr2]; rw [if_pos (by omega)]⟩
  | writtenFetchMax k o => exact ⟨m.written.length - 1, _, _, _, by simp only [exec, place_newest hin.written, hr2]; rfl⟩
  | capLoad o =>
    have := hin.cap
    exact ⟨m.cap.length - 1, _, _, _, by simp only [exec, hr3]; rw [if_pos (by omega)]⟩
  | maxCapLoad => exact ⟨0, _, _, _, rfl⟩
  | growAlloc k => exact ⟨0, _, _, _, by simp only [exec, hs, if_true]; rfl⟩
  | growPublish o => exact ⟨m.cap.length - 1, _, _, _, by simp only [exec, hs, if_true, place_newest hin.cap]; rfl⟩
  | stLoad i o =>
    obtain ⟨r, hr, -⟩ := newest_some (hin.st i)
    have := hin.st i
    exact ⟨(m.st i).length - 1, _, _, _, by simp only [exec, h.usable hI hp.1, if_true, hr]; rw [if_pos (by omega)]⟩
  | stCas i e s o f =>
    obtain ⟨r, hr, -⟩ := newest_some (hin.st i)
    have := hin.st i
    by_cases hv : r.val = e
    · exact ⟨(m.st i).length - 1, _, _, _, by
        simp only [exec, h.usable hI hp.1, if_true, hr, hv, place_newest (hin.st i)]; rfl⟩
    · exact ⟨(m.st i).length - 1, _, _, _, by
        simp only [exec, h.usable hI hp.1, if_true, hr, if_neg hv]; rw [if_pos (by omega)]⟩
  | stStore i s o =>
    exact ⟨(m.st i).length - 1, _, _, _, by simp only [exec, h.usable hI hp.2.1, if_true, place_newest (hin.st i)]; rfl⟩
  | valRead i =>
    rcases hx : exec (.valRead i) 0 V m with _ | x | ⟨V', m', b'⟩
    · simp only [exec, cp hp.1, hs, if_true] at hx
      split at hx <;> cases hx
    · exact absurd hx (nb 0 x)
    · exact ⟨0, V', m', b', hx⟩
  | valWrite i v => exact ⟨0, _, _, _, by simp only [exec, h.usable hI hp.1, hs, if_true]; rfl⟩
  | valSwap i j =>
    rcases hx : exec (.valSwap i j) 0 V m with _ | x | ⟨V', m', b'⟩
    · simp only [exec] at hx
      split at hx
      · split at hx
        · cases hx
        · split at hx
          · split at hx <;> cases hx
          · cases hx
      · cases hx
    · exact absurd hx (nb 0 x)
    · exact ⟨0, V', m', b', hx⟩

/-- The newest messages are read: the same happens as in the sequentially consistent model. -/
theorem Rel.same (h : Rel m V w.mem) (hI : Verif.Inv σ₀ w) {a : Act α} (hp : Verif.Pre raw c w a) {b b' : a.Resp}
    (he : w.exec c a = some (w', b)) {t : Nat} (hx : exec a t V m = .ok V' m' b') : b' = b ∧ Rel m' V' w'.mem := by
  have hM := World.exec_mem he
  have hk := h.known.tells (exec_tells hx)
  generalize w'.mem = M' at hM ⊢
  clear he
  cases a with
  | resFetchAdd k o =>
    simp only [exec] at hx
    split at hx
    · next r hpl hr =>
      cases hx; cases hM
      have e := lastVal_eq (newest_only h.known.res (place_last hpl).1 hr)
      refine ⟨by rw [h.reserved, e], ⟨hk, ?_, h.written, h.cap, h.alloc, h.maxCap, h.pol, h.st, h.val⟩⟩
      simp only [lastVal_append, h.reserved, e]
    · cases hx
    · cases hx
  | resLoad o =>
    simp only [exec] at hx
    split at hx
    · next r hr =>
      split at hx
      · next hle =>
        cases hx; cases hM
        exact ⟨by rw [h.reserved, lastVal_eq (newest_only h.known.res hle hr)], { h with known := hk }⟩
      · cases hx
    · cases hx
  | writtenLoad o =>
    simp only [exec] at hx
    split at hx
    · next r hr =>
      split at hx
      · next hle =>
        cases hx; cases hM
        exact ⟨by rw [h.written, lastVal_eq (newest_only h.known.written hle hr)], { h with known := hk }⟩
      · cases hx
    · cases hx
  | writtenFetchMax k o =>
    simp only [exec] at hx
    split at hx
    · next r hpl hr =>
      cases hx; cases hM
      have e := lastVal_eq (newest_only h.known.written (place_last hpl).1 hr)
      refine ⟨rfl, ⟨hk, h.reserved, ?_, h.cap, h.alloc, h.maxCap, h.pol, h.st, h.val⟩⟩
      simp only [lastVal_append, h.written, e]
    · cases hx
    · cases hx
  | capLoad o =>
    simp only [exec] at hx
    split at hx
    · next r hr =>
      split at hx
      · next hle =>
        cases hx; cases hM
        exact ⟨by rw [h.cap, lastVal_eq (newest_only h.known.cap hle hr)], { h with known := hk }⟩
      · cases hx
    · cases hx
  | maxCapLoad =>
    cases hx; cases hM
    exact ⟨by rw [h.maxCap], { h with known := hk }⟩
  | growAlloc k =>
    obtain ⟨h1, h2, -, -, hg⟩ := hp
    have hal := hI.grow_none hg
    have gr : w.mem.growing = false := by rw [hI.growing, hg]; rfl
    simp only [exec, h.known.sees, if_true] at hx
    simp only [Act.exec, gr, Bool.false_eq_true, if_false] at hM
    cases hx; cases hM
    refine ⟨rfl, ⟨hk, h.reserved, h.written, h.cap, ?_, h.maxCap, h.pol, ?_, ?_⟩⟩
    · show w.mem.pol.grow w.mem.cap k = m.pol.grow m.alloc k
      rw [h.pol, ← h.alloc, hal]
    · show (fun i => _) = lastSt m
      rw [← h.st]
      funext i
      dsimp only
      split
      · next hi =>
        rw [(hI.st_none i).2]
        rcases hv : w.spec.val i with _ | v
        · rfl
        · have := hI.pub_cap i (by rw [hv]; rfl); have := hI.cap_alloc; omega
      · rfl
    · show (fun i => _) = m.val
      rw [← h.val]
      funext i
      dsimp only
      split
      · next hi => rw [hI.uninit i (Nat.le_trans hI.cap_alloc hi.1)]
      · rfl
  | growPublish o =>
    have gr : w.mem.growing = true := by rw [hI.growing, show w.grower = _ from hp]; rfl
    simp only [exec, h.known.sees, if_true] at hx
    simp only [Act.exec, gr, if_true] at hM
    split at hx
    · cases hx; cases hM
      exact ⟨rfl, ⟨hk, h.reserved, h.written, by simp only [lastVal_append, h.alloc], h.alloc, h.maxCap, h.pol, h.st, h.val⟩⟩
    · cases hx
    · cases hx
  | stLoad i o =>
    simp only [exec] at hx
    simp only [Act.exec] at hM
    split at hx
    · split at hx
      · next r hr =>
        split at hx
        · next hle =>
          split at hM
          · cases hx; cases hM
            exact ⟨by rw [h.st, lastSt_eq (newest_only (h.known.st i) hle hr)], { h with known := hk }⟩
          · cases hM
        · cases hx
      · cases hx
    · cases hx
  | stCas i e s o f =>
    simp only [exec] at hx
    simp only [Act.exec] at hM
    split at hM
    swap; · cases hM
    split at hx
    · split at hx
      · next r hr =>
        split at hx
        · next hv =>
          split at hx
          · next hpl =>
            have e1 := lastSt_eq (newest_only (h.known.st i) (place_last hpl).1 hr)
            rw [← h.st, hv] at e1
            rw [if_pos e1] at hM
            cases hx; cases hM
            refine ⟨rfl, ⟨hk, h.reserved, h.written, h.cap, h.alloc, h.maxCap, h.pol, ?_, h.val⟩⟩
            funext j
            rw [lastSt_upd, ← h.st]; rfl
          · cases hx
          · cases hx
        · next hv =>
          split at hx
          · next hle =>
            have e1 := lastSt_eq (newest_only (h.known.st i) hle hr)
            rw [← h.st] at e1
            rw [if_neg (by rw [e1]; exact hv), e1] at hM
            cases hx; cases hM
            exact ⟨rfl, { h with known := hk }⟩
          · cases hx
      · cases hx
    · cases hx
  | stStore i s o =>
    simp only [exec] at hx
    simp only [Act.exec] at hM
    split at hM
    swap; · cases hM
    split at hx
    · split at hx
      · cases hx; cases hM
        refine ⟨rfl, ⟨hk, h.reserved, h.written, h.cap, h.alloc, h.maxCap, h.pol, ?_, h.val⟩⟩
        funext j
        rw [lastSt_upd, ← h.st]; rfl
      · cases hx
      · cases hx
    · cases hx
  | valRead i =>
    simp only [exec] at hx
    simp only [Act.exec] at hM
    split at hM
    swap; · cases hM
    split at hx
    · split at hx
      · split at hx
        · next v hv =>
          rw [h.val, hv] at hM
          cases hx; cases hM
          exact ⟨rfl, ⟨hk, h.reserved, h.written, h.cap, h.alloc, h.maxCap, h.pol, h.st, h.val⟩⟩
        · cases hx
      · cases hx
    · cases hx
  | valWrite i v =>
    simp only [exec] at hx
    simp only [Act.exec] at hM
    split at hM
    swap; · cases hM
    split at hx
    · split at hx
      · cases hx; cases hM
        exact ⟨rfl, ⟨hk, h.reserved, h.written, h.cap, h.alloc, h.maxCap, h.pol, h.st, by simp only [h.val]⟩⟩
      · cases hx
    · cases hx
  | valSwap i j =>
    simp only [exec] at hx
    simp only [Act.exec] at hM
    split at hM
    swap; · cases hM
    split at hx
    · split at hx
      · cases hx
      · split at hx
        · split at hx
          · next v u hv hu =>
            rw [h.val, hv, hu] at hM
            cases hx; cases hM
            exact ⟨rfl, ⟨hk, h.reserved, h.written, h.cap, h.alloc, h.maxCap, h.pol, h.st, rfl⟩⟩
          · cases hx
        · cases hx
    · cases hx

/-- Values stay. -/
theorem exec_keeps {a : Act α} {t : Nat} {b : a.Resp} (he : exec a t V m = .ok V' m' b) {i : Nat} (hi : (m.val i).isSome) :
    (m'.val i).isSome := by
  cases a with
  | valWrite j v =>
    simp only [exec] at he
    split at he
    · split at he
      · cases he
        show (upd m.val j _ i).isSome
        rw [upd_apply]; split
        · rfl
        · exact hi
      · cases he
    · cases he
  | valSwap j k =>
    simp only [exec] at he
    split at he
    · split at he
      · cases he
      · split at he
        · split at he
          · cases he
            show (upd (upd m.val j _) k _ i).isSome
            rw [upd_apply, upd_apply]; split
            · rfl
            · split
              · rfl
              · exact hi
          · cases he
        · cases he
    · cases he
  | resFetchAdd k o => simp only [exec] at he; split at he <;> cases he; exact hi
  | writtenFetchMax k o => simp only [exec] at he; split at he <;> cases he; exact hi
  | resLoad o => simp only [exec] at he; split at he <;> [split at he; skip] <;> cases he; exact hi
  | writtenLoad o => simp only [exec] at he; split at he <;> [split at he; skip] <;> cases he; exact hi
  | capLoad o => simp only [exec] at he; split at he <;> [split at he; skip] <;> cases he; exact hi
  | maxCapLoad => cases he; exact hi
  | growAlloc k => simp only [exec] at he; split at he <;> cases he; exact hi
  | growPublish o => simp only [exec] at he; split at he <;> [split at he; skip] <;> cases he; exact hi
  | stLoad j o => simp only [exec] at he; split at he <;> [(split at he <;> [split at he; skip]); skip] <;> cases he; exact hi
  | stCas j e s o f =>
    simp only [exec] at he
    split at he
    · split at he
      · split at he
        · split at he <;> cases he; exact hi
        · split at he <;> cases he; exact hi
      · cases he
    · cases he
  | stStore j s o => simp only [exec] at he; split at he <;> [split at he; skip] <;> cases he; exact hi
  | valRead j =>
    simp only [exec] at he
    split at he
    · split at he
      · split at he <;> cases he; exact hi
      · cases he
    · cases he

/-! ## one call -/

variable {vs : List α} {op : Op α β}

theorem Rel.settled {M : Mem α} (h : Rel m V M) (hg : M.growing = false) : M = m.settled := by
  obtain ⟨-, h1, h2, h3, h4, h5, h6, h7, h8⟩ := h
  cases M
  simp only [WMem.settled, Mem.mk.injEq] at *
  exact ⟨h1, h2, h3, h4, h5, hg, h6, h7, h8⟩

theorem Complete.rel (h : Complete m V) : Rel m V m.settled := ⟨h, rfl, rfl, rfl, rfl, rfl, rfl, rfl, rfl⟩

/-- A call that began alone with the content `vs` has `p` left to do. -/
def Going (vs : List α) (op : Op α β) (c : Cid) (p : Prog α (Ret α β)) (m : WMem α) (V : View) : Prop :=
  ∃ w x M', Verif.Inv (.ofList vs) w ∧
    Verif.Safe (op.ctx (.ofList vs) c) (fun x w => ∀ i, i ∈ x.elements ∨ i ∈ x.pointers → (w.mem.val i).isSome) (fun _ _ => True) p w ∧
    Rel m V w.mem ∧ p.solo w.mem = (.done x, M') ∧ M'.Rep (op.next vs) ∧ op.Gives vs x

/-- A memory that represents a list can be shared. -/
theorem inv_of_rep {M : Mem α} (h : M.Rep vs) : Verif.Inv (.ofList vs) (World.init M vs) := by
  have hst := h.st
  have hval := h.val
  have hcap := h.cap
  refine ⟨.nil, h.reserved, ?_, ?_, ?_, ?_, ?_, ?_, ?_, ?_, h.good, ?_, ?_, ?_, ?_⟩
  · intro i hi; simpa [World.init, SpecSt.ofList] using hi
  · intro i hi
    simp [World.init, SpecSt.ofList] at hi ⊢; omega
  · intro i
    simp only [World.init, SpecSt.ofList, hst i]
    by_cases hi : i < vs.length <;> simp [hi]
  · intro i hi; exact hval i
  · intro i
    simp only [World.init, hst i]
    split <;> simp
  · intro i hi
    have := h.written
    simp [World.init, SpecSt.ofList] at hi ⊢; omega
  · intro i hi
    simp only [World.init, hval i] at hi ⊢
    simp; omega
  · intro i hi
    simp only [World.init, hval i, SpecSt.ofList] at hi ⊢
    simp; omega
  · have := h.alloc; simp [World.init]; omega
  · simp [World.init, h.growing]
  · intro _; exact h.alloc
  · intro c hc; simp [World.init] at hc

theorem loc_init (M : Mem α) : Loc c (World.init M vs) noPos noPos [] False (World.init M vs) := by
  refine ⟨⟨.refl _, rfl, ?_, ?_, rfl, ?_⟩, fun _ hi => hi.elim⟩
  · intro i; simp [World.init, noPos]
  · intro i
    simp only [World.init, SpecSt.ofList, noPos, iff_false]
    rintro ⟨h1, -, h2⟩
    simp at h2; omega
  · simp [World.init]

theorem Going.start (h : m.settled.Rep vs) (hV : Complete m V) (hf : op.Fits vs m.maxCap)
    (hn : ∀ i ∈ op.needs, (m.val i).isSome) (hp : ∀ i ∈ op.needsPtr, (m.val i).isSome) : Going vs op c op.prog m V := by
  have lt : ∀ i, (m.val i).isSome → i < vs.length := fun i hi => by
    rw [show m.val i = vs[i]? from h.val i] at hi
    simpa using hi
  obtain ⟨x, ⟨M', h1, h2, -⟩, h3⟩ := op_ends h op hf (fun i hi => lt i (hn i hi)) (fun i hi => lt i (hp i hi))
  have hI := inv_of_rep h
  have hs : ∀ i, (m.val i).isSome → ((World.init m.settled vs).spec.val i).isSome := fun i hi => by
    have := lt i hi
    simpa [World.init, SpecSt.ofList] using this
  refine ⟨_, x, M', hI, ?_, hV.rel, h1, h2, h3⟩
  refine (opSafe op hI (loc_init _) (fun i hi => hs i (hn i hi)) fun i hi => hs i (hp i hi)).mono ?_ fun _ _ _ _ => trivial
  rintro r w hw ⟨d, hL, ho⟩ i hi
  obtain ⟨h4, h5⟩ := ho.reveals (P := fun i => (w.spec.val i).isSome) LenOK.pub fun i hi => hL.ev.pub _ (hs i (hn i hi))
  have : (w.spec.val i).isSome := hi.elim (h4 i) (h5 i)
  rw [hw.val_eq i this]; exact this

theorem Going.step {a : Act α} {again : a.Resp → Bool} {k : a.Resp → Prog α (Ret α β)} (h : Going vs op c (.step a again k) m V)
    (hin : V.In m) : (∀ t x, exec a t V m ≠ .bad x) ∧ (∃ t V' m' b, exec a t V m = .ok V' m' b) ∧
      ∀ t V' m' b, exec a t V m = .ok V' m' b → again b = false ∧ Going vs op c (k b) m' V' := by
  obtain ⟨w, x, M', hI, hS, hR, hso, hM, hx⟩ := h
  obtain ⟨hp, hs⟩ := hS w hI (.refl _ _)
  obtain ⟨w', b, he, hI', -⟩ := Verif.exec_ok hI hp
  obtain ⟨hb, hso'⟩ := Prog.solo_step hso (World.exec_mem he)
  refine ⟨hR.not_bad hI hp he, hR.possible hin hI hp he, fun t V' m' b' hex => ?_⟩
  obtain ⟨rfl, hR'⟩ := hR.same hI hp he hex
  exact ⟨hb, w', x, M', hI', (hs w' b' he).2.2 hb, hR', hso', hM, hx⟩

theorem Going.ret {x : Ret α β} (h : Going vs op c (.ret x) m V) :
    m.settled.Rep (op.next vs) ∧ op.Gives vs (.ok x) ∧ ∀ i, i ∈ x.elements ∨ i ∈ x.pointers → (m.val i).isSome := by
  obtain ⟨w, y, M', hI, hS, hR, hso, hM, hx⟩ := h
  cases hso
  refine ⟨?_, hx, fun i hi => ?_⟩
  · rw [← hR.settled hM.growing]; exact hM
  · rw [← hR.val]; exact hS w hI (.refl _ _) i hi

theorem Going.panic {k : PanicKind} (h : Going vs op c (.panic k) m V) :
    m.settled.Rep (op.next vs) ∧ op.Gives vs (.error k) := by
  obtain ⟨w, y, M', hI, hS, hR, hso, hM, hx⟩ := h
  cases hso
  exact ⟨by rw [← hR.settled hM.growing]; exact hM, hx⟩

/-! ## happens-before -/

variable {κ κ' κ0 : Cfg α β}

/-- What happens before a call is over, and known to the call from its start. -/
def Joined (κ : Cfg α β) : Prop :=
  ∀ c r, κ.calls c = some r → r.start.Le r.view ∧ ∀ d ∈ r.hb, ∃ q, κ.calls d = some q ∧ q.Over ∧ q.view.Le r.start

theorem Joined.update (h : Joined κ) {r q : Rec α β} (hc : κ.calls c = some r) (hr : ∃ p, r.status = .running p) (hh : q.hb = r.hb)
    (hs : q.start = r.start) (hv : r.view.Le q.view) (m : WMem α) :
    Joined { κ with mem := m, calls := upd κ.calls c (some q) } := by
  have keep' : ∀ d q', κ.calls d = some q' → q'.Over → upd κ.calls c (some q) d = some q' := by
    intro d q' hd ho
    rw [upd_apply, if_neg]; · exact hd
    rintro rfl
    rw [hc] at hd; cases hd
    obtain ⟨p, hp⟩ := hr
    rcases ho with ⟨x, hx⟩ | ⟨x, hx⟩ <;> rw [hp] at hx <;> cases hx
  intro e s he
  change upd κ.calls c (some q) e = some s at he
  rw [upd_apply] at he
  split at he
  · next hec =>
    cases he
    obtain ⟨h1, h2⟩ := h c r hc
    refine ⟨by rw [hs]; exact h1.trans hv, fun d hd => ?_⟩
    rw [hh] at hd
    obtain ⟨q', g1, g2, g3⟩ := h2 d hd
    exact ⟨q', keep' d q' g1 g2, g2, by rw [hs]; exact g3⟩
  · obtain ⟨h1, h2⟩ := h e s he
    refine ⟨h1, fun d hd => ?_⟩
    obtain ⟨q', g1, g2, g3⟩ := h2 d hd
    exact ⟨q', keep' d q' g1 g2, g2, g3⟩

theorem joined {m : Mem α} (h : Reach m κ) : Joined κ := by
  induction h with
  | init => intro c r hc; cases hc
  | @step κ κ' hr hs ih =>
    cases hs with
    | call op H V hH hn hp =>
      have hnew := hr.new κ.next (Nat.le_refl _)
      have keep' : ∀ d q' x, κ.calls d = some q' → upd κ.calls κ.next x d = some q' := by
        intro d q' x hd
        rw [upd_apply, if_neg]; · exact hd
        rintro rfl
        rw [hnew] at hd; cases hd
      intro e s he
      change upd κ.calls κ.next _ e = some s at he
      rw [upd_apply] at he
      split at he
      · cases he
        refine ⟨.refl _, fun d hd => ?_⟩
        obtain ⟨q, h1, h2⟩ := ended_over hH d hd
        obtain ⟨q', h1', h3⟩ := ended_le hH d hd
        rw [h1] at h1'; cases h1'
        exact ⟨q, keep' _ _ _ h1, h2, h3⟩
      · obtain ⟨h1, h2⟩ := ih e s he
        refine ⟨h1, fun d hd => ?_⟩
        obtain ⟨q, g1, g2⟩ := h2 d hd
        exact ⟨q, keep' _ _ _ g1, g2⟩
    | act c r a again k t V m b hc hr he =>
      exact ih.update (q := { r with view := V, status := .running (if again b then .step a again k else k b) }) hc ⟨_, hr⟩ rfl rfl
        (exec_tells he).le _
    | bad c r a again k t x hc hr he => exact ih
    | ret c r x hc hr => exact ih.update (q := { r with status := .done x }) hc ⟨_, hr⟩ rfl rfl (.refl _) κ.mem
    | panic c r k hc hr => exact ih.update (q := { r with status := .panicked k }) hc ⟨_, hr⟩ rfl rfl (.refl _) κ.mem
    | reserveMax q hi => exact ih

theorem Joined.hb (h : Joined κ) {c d : Cid} (hcd : κ.HB c d) :
    ∃ q r, κ.calls c = some q ∧ κ.calls d = some r ∧ q.Over ∧ q.view.Le r.start := by
  induction hcd with
  | one hr hc =>
    obtain ⟨q, h1, h2, h3⟩ := (h _ _ hr).2 _ hc
    exact ⟨q, _, h1, hr, h2, h3⟩
  | trans _ _ ih1 ih2 =>
    obtain ⟨q, r, h1, h2, h3, h4⟩ := ih1
    obtain ⟨q', r', h1', h2', h3', h4'⟩ := ih2
    rw [h2] at h1'; cases h1'
    exact ⟨q, r', h1, h2', h3, h4.trans ((h _ _ h2).1.trans h4')⟩

/-- Who knows what every call knows knows everything. -/
theorem complete_of {m : Mem α} (hr : Reach m κ) (hV : ∀ c r, κ.calls c = some r → r.view.Le V) : Complete κ.mem V := by
  have A := ainv hr
  have knows : ∀ {P : View → Prop}, (∀ V V', View.Le V V' → P V → P V') → κ.Somebody P → P V := by
    rintro P hm (h | ⟨c, r, hc, h⟩)
    · exact hm _ _ (View.bot_le _) h
    · exact hm _ _ (hV c r hc) h
  exact ⟨knows (fun V V' hl hp => Nat.le_trans hp (Nat.succ_le_succ hl.res)) A.res,
    knows (fun V V' hl hp => Nat.le_trans hp (Nat.succ_le_succ hl.written)) A.written,
    knows (fun V V' hl hp => Nat.le_trans hp (Nat.succ_le_succ hl.cap)) A.cap,
    fun i => knows (fun V V' hl hp => Nat.le_trans hp (Nat.succ_le_succ (hl.st i))) (A.st i),
    fun k hk => knows (fun V V' hl hp => hl.seen k hp) (A.acc k hk), A.allocAt⟩

/-- Calls stay, with what happens before them. -/
def Extends (κ κ' : Cfg α β) : Prop :=
  κ.next ≤ κ'.next ∧ ∀ c r, κ.calls c = some r → ∃ r', κ'.calls c = some r' ∧ r'.op = r.op ∧ r'.hb = r.hb

theorem Step.extends (hs : Step κ κ') (hn : ∀ d, κ.next ≤ d → κ.calls d = none) : Extends κ κ' := by
  have other : ∀ (d : Cid) (q : Rec α β), (∀ r, κ.calls d = some r → q.op = r.op ∧ q.hb = r.hb) → ∀ c r, κ.calls c = some r →
      ∃ r', upd κ.calls d (some q) c = some r' ∧ r'.op = r.op ∧ r'.hb = r.hb := by
    intro d q hq c r hc
    rw [upd_apply]
    split
    · next he => rw [he] at hc; exact ⟨q, rfl, hq r hc⟩
    · exact ⟨r, hc, rfl, rfl⟩
  have upd' : ∀ {d : Cid} {s q : Rec α β}, κ.calls d = some s → q.op = s.op → q.hb = s.hb →
      ∀ r, κ.calls d = some r → q.op = r.op ∧ q.hb = r.hb := by
    intro d s q hd h1 h2 r hr
    rw [hd] at hr; cases hr; exact ⟨h1, h2⟩
  cases hs with
  | call op H V hH hn' hp =>
    exact ⟨Nat.le_succ _, other _ _ fun r hr => by rw [hn _ (Nat.le_refl _)] at hr; cases hr⟩
  | act c r a again k t V m b hc hr he => exact ⟨Nat.le_refl _, other _ _ (upd' hc rfl rfl)⟩
  | bad c r a again k t x hc hr he => exact ⟨Nat.le_refl _, fun c r hc => ⟨r, hc, rfl, rfl⟩⟩
  | ret c r x hc hr => exact ⟨Nat.le_refl _, other _ _ (upd' hc rfl rfl)⟩
  | panic c r k hc hr => exact ⟨Nat.le_refl _, other _ _ (upd' hc rfl rfl)⟩
  | reserveMax q hi => exact ⟨Nat.le_refl _, fun c r hc => ⟨r, hc, rfl, rfl⟩⟩

theorem Extends.called (h : Extends κ κ') (hc : κ.Called c op) : κ'.Called c op := by
  obtain ⟨r, h1, rfl⟩ := hc
  obtain ⟨r', h2, h3, -⟩ := h.2 c r h1
  exact ⟨r', h2, h3⟩

theorem Extends.inTurn {m : Mem α} (hr : Reach m κ) (h : Extends κ κ') {n : Cid} (ht : κ'.InTurn n) : κ.InTurn n := by
  have back : ∀ {c d}, κ'.HB c d → (∃ r, κ.calls d = some r) → κ.HB c d ∧ ∃ r, κ.calls c = some r := by
    intro c d hh
    induction hh with
    | @one c d r' h1 hc =>
      rintro ⟨r, hd⟩
      obtain ⟨r2, h2, -, h3⟩ := h.2 _ _ hd
      rw [h1] at h2; cases h2
      rw [h3] at hc
      obtain ⟨q, hq, -⟩ := (joined hr _ _ hd).2 _ hc
      exact ⟨.one hd hc, q, hq⟩
    | trans _ _ ih1 ih2 =>
      intro hd
      obtain ⟨h1, h2⟩ := ih2 hd
      obtain ⟨h3, h4⟩ := ih1 h2
      exact ⟨h3.trans h1, h4⟩
  intro c d o o' hc hd hn hlt
  obtain ⟨r, hr', -⟩ := id hd
  exact (back (ht c d o o' (h.called hc) (h.called hd) hn hlt) ⟨r, hr'⟩).1

/-! ## one call after the other -/

variable {N mx : Nat} {ops : List (Op α β)}

theorem contentAfter_take {k : Nat} (h : ops[k]? = some op) :
    contentAfter vs (ops.take (k + 1)) = op.next (contentAfter vs (ops.take k)) := by
  rw [List.take_add_one, h]
  simp [contentAfter, List.foldl_append]

theorem fits_mono {l : List α} {a b : Nat} (h : op.Fits l a) (hab : a ≤ b) : op.Fits l b := by
  cases op <;> simp only [Op.Fits] at h ⊢ <;> first | omega | exact ⟨Nat.le_trans h.1 hab, h.2⟩

/-- From call number `N` on the calls are made in turn, beginning with the content `vs`. -/
structure SInv (N mx : Nat) (vs : List α) (ops : List (Op α β)) (κ : Cfg α β) : Prop where
  bad : κ.bad = none
  le : N ≤ κ.next
  max : mx ≤ κ.mem.maxCap
  known : ∀ c r x, κ.calls c = some r → r.status = .done x → ∀ i, i ∈ x.elements ∨ i ∈ x.pointers → (κ.mem.val i).isSome
  state : (κ.Idle ∧ κ.mem.settled.Rep (contentAfter vs (ops.take (κ.next - N)))) ∨
    ∃ k r p, κ.next = N + k + 1 ∧ κ.calls (N + k) = some r ∧ ops[k]? = some r.op ∧ r.status = .running p ∧
      (∀ c q, κ.calls c = some q → c ≠ N + k → q.Over) ∧
      Going (contentAfter vs (ops.take k)) r.op (N + k) p κ.mem r.view
  done : ∀ k r x, κ.calls (N + k) = some r → r.status = .done x → r.op.Gives (contentAfter vs (ops.take k)) (.ok x)
  panicked : ∀ k r p, κ.calls (N + k) = some r → r.status = .panicked p → r.op.Gives (contentAfter vs (ops.take k)) (.error p)

theorem not_over {r : Rec α β} {p : Prog α (Ret α β)} (hr : r.status = .running p) : ¬ r.Over := by
  rintro (⟨x, hx⟩ | ⟨x, hx⟩) <;> rw [hr] at hx <;> cases hx

theorem SInv.runs (h : SInv N mx vs ops κ) {r : Rec α β} {p : Prog α (Ret α β)} (hc : κ.calls c = some r) (hr : r.status = .running p) :
    ∃ k, c = N + k ∧ κ.next = N + k + 1 ∧ ops[k]? = some r.op ∧ (∀ d q, κ.calls d = some q → d ≠ N + k → q.Over) ∧
      Going (contentAfter vs (ops.take k)) r.op (N + k) p κ.mem r.view := by
  rcases h.state with ⟨hi, -⟩ | ⟨k, q, p', h1, h2, h3, h4, h5, h6⟩
  · exact absurd ⟨r, p, hc, rfl, hr⟩ (hi c r.op)
  · by_cases hk : c = N + k
    · subst hk
      rw [hc] at h2; cases h2
      rw [hr] at h4; cases h4
      exact ⟨k, rfl, h1, h3, h5, h6⟩
    · exact absurd (h5 c r hc hk) (not_over hr)

/-- The running call ends. -/
theorem SInv.ends (h : SInv N mx vs ops κ) {k : Nat} {q : Rec α β} (hn : κ.next = N + k + 1) (hop : ops[k]? = some q.op)
    (ho : ∀ d q, κ.calls d = some q → d ≠ N + k → q.Over) (hq : q.Over)
    (hrep : κ.mem.settled.Rep (q.op.next (contentAfter vs (ops.take k))))
    (h1 : ∀ x, q.status = .done x → q.op.Gives (contentAfter vs (ops.take k)) (.ok x) ∧
      ∀ i, i ∈ x.elements ∨ i ∈ x.pointers → (κ.mem.val i).isSome)
    (h2 : ∀ p, q.status = .panicked p → q.op.Gives (contentAfter vs (ops.take k)) (.error p)) :
    SInv N mx vs ops { κ with calls := upd κ.calls (N + k) (some q) } where
  bad := h.bad
  le := h.le
  max := h.max
  known c r x hc hr := by
    change upd κ.calls (N + k) (some q) c = some r at hc
    rw [upd_apply] at hc
    split at hc
    · cases hc; exact (h1 x hr).2
    · exact h.known c r x hc hr
  state := by
    refine .inl ⟨?_, ?_⟩
    · rintro c op ⟨r, p, hc, -, hr⟩
      change upd κ.calls (N + k) (some q) c = some r at hc
      rw [upd_apply] at hc
      split at hc
      · cases hc; exact not_over hr hq
      · next hne => exact not_over hr (ho c r hc hne)
    · show κ.mem.settled.Rep (contentAfter vs (ops.take (κ.next - N)))
      rw [hn, show N + k + 1 - N = k + 1 from by omega, contentAfter_take hop]
      exact hrep
  done j r x hc hr := by
    change upd κ.calls (N + k) (some q) (N + j) = some r at hc
    rw [upd_apply] at hc
    split at hc
    · next he =>
      cases hc
      obtain rfl : j = k := Nat.add_left_cancel he
      exact (h1 x hr).1
    · exact h.done j r x hc hr
  panicked j r p hc hr := by
    change upd κ.calls (N + k) (some q) (N + j) = some r at hc
    rw [upd_apply] at hc
    split at hc
    · next he =>
      cases hc
      obtain rfl : j = k := Nat.add_left_cancel he
      exact h2 p hr
    · exact h.panicked j r p hc hr

theorem SInv.step {m : Mem α} (h : SInv N mx vs ops κ) (hr : Reach m κ) (hs : Step κ κ')
    (hsub : ∀ (k : Nat) op, κ'.Called (N + k) op → ops[k]? = some op)
    (hfit : ∀ (k : Nat) op, ops[k]? = some op → op.Fits (contentAfter vs (ops.take k)) mx) (ht : κ'.InTurn N) : SInv N mx vs ops κ' := by
  have hJ := joined (hr.step hs)
  cases hs with
  | call op H V hH hn hp =>
    obtain ⟨k, hk⟩ : ∃ k, κ.next = N + k := ⟨κ.next - N, by have := h.le; exact (Nat.add_sub_cancel' this).symm⟩
    have hnew := hr.new κ.next (Nat.le_refl _)
    have old : ∀ d q x, κ.calls d = some q → upd κ.calls κ.next x d = some q := by
      intro d q x hd
      rw [upd_apply, if_neg]; · exact hd
      rintro rfl
      rw [hnew] at hd; cases hd
    have lt : ∀ d q, κ.calls d = some q → d < κ.next := fun d q hd => Nat.lt_of_not_le fun hle => by
      rw [hr.new d hle] at hd; cases hd
    have past : ∀ d q, κ.calls d = some q → q.Over ∧ q.view.Le V := by
      intro d q hd
      obtain ⟨q', r', h1, h2, h3, h4⟩ := hJ.hb (ht d κ.next q.op op ⟨q, old _ _ _ hd, rfl⟩ ⟨_, upd_same _ _ _, rfl⟩ h.le (lt d q hd))
      change upd κ.calls κ.next _ d = some q' at h1
      rw [old _ _ _ hd] at h1; cases h1
      change upd κ.calls κ.next _ κ.next = some r' at h2
      rw [upd_same] at h2; cases h2
      exact ⟨h3, h4⟩
    have hop : ops[k]? = some op := hsub k op ⟨_, by
      show upd κ.calls κ.next _ (N + k) = _
      rw [← hk]; exact upd_same _ _ _, rfl⟩
    have hrep : κ.mem.settled.Rep (contentAfter vs (ops.take k)) := by
      rcases h.state with ⟨-, h1⟩ | ⟨j, q, p', h1, h2, h3, h4, h5, h6⟩
      · rwa [hk, Nat.add_sub_cancel_left] at h1
      · exact absurd (past _ q h2).1 (not_over h4)
    have hG : Going (contentAfter vs (ops.take k)) op (N + k) op.prog κ.mem V := by
      refine .start hrep (complete_of hr fun d q hd => (past d q hd).2) (fits_mono (hfit k op hop) h.max) (fun i hi => ?_) fun i hi => ?_
      · obtain ⟨d, -, q, x, h1, h2, h3⟩ := hn i hi
        exact h.known d q x h1 h2 i (.inl h3)
      · obtain ⟨d, -, q, x, h1, h2, h3⟩ := hp i hi
        exact h.known d q x h1 h2 i (.inr h3)
    refine ⟨h.bad, Nat.le_succ_of_le h.le, h.max, ?_, .inr ⟨k, ⟨op, H, V, V, .running op.prog⟩, _, ?_, ?_, hop, rfl, ?_, hG⟩, ?_, ?_⟩
    · intro d q x hd hq
      change upd κ.calls κ.next _ d = some q at hd
      rw [upd_apply] at hd
      split at hd
      · cases hd; cases hq
      · exact h.known d q x hd hq
    · show κ.next + 1 = N + k + 1
      rw [hk]
    · show upd κ.calls κ.next _ (N + k) = _
      rw [← hk]; exact upd_same _ _ _
    · intro d q hd hne
      change upd κ.calls κ.next _ d = some q at hd
      rw [hk, upd_apply, if_neg hne] at hd
      exact (past d q hd).1
    · intro j q x hd hq
      change upd κ.calls κ.next _ (N + j) = some q at hd
      rw [upd_apply] at hd
      split at hd
      · cases hd; cases hq
      · exact h.done j q x hd hq
    · intro j q x hd hq
      change upd κ.calls κ.next _ (N + j) = some q at hd
      rw [upd_apply] at hd
      split at hd
      · cases hd; cases hq
      · exact h.panicked j q x hd hq
  | act c r a again k t V m b hc hst he =>
    obtain ⟨j, rfl, h2, h3, h4, h5⟩ := h.runs hc hst
    obtain ⟨hb, hG⟩ := (h5.step ((binv hr).views _ _ hc)).2.2 t V m b he
    rw [hb, if_neg Bool.false_ne_true]
    have keeps := fun i => exec_keeps he (i := i)
    refine ⟨h.bad, h.le, by rw [show _ = κ.mem.maxCap from (exec_tells he).max]; exact h.max, ?_,
      .inr ⟨j, _, _, h2, upd_same _ _ _, h3, rfl, ?_, hG⟩, ?_, ?_⟩
    · intro d q x hd hq
      change upd κ.calls (N + j) _ d = some q at hd
      rw [upd_apply] at hd
      split at hd
      · cases hd; cases hq
      · exact fun i hi => keeps i (h.known d q x hd hq i hi)
    · intro d q hd hne
      change upd κ.calls (N + j) _ d = some q at hd
      rw [upd_apply, if_neg hne] at hd
      exact h4 d q hd hne
    · intro j' q x hd hq
      change upd κ.calls (N + j) _ (N + j') = some q at hd
      rw [upd_apply] at hd
      split at hd
      · cases hd; cases hq
      · exact h.done j' q x hd hq
    · intro j' q x hd hq
      change upd κ.calls (N + j) _ (N + j') = some q at hd
      rw [upd_apply] at hd
      split at hd
      · cases hd; cases hq
      · exact h.panicked j' q x hd hq
  | bad c r a again k t x hc hst he =>
    obtain ⟨j, rfl, h2, h3, h4, h5⟩ := h.runs hc hst
    exact absurd he ((h5.step ((binv hr).views _ _ hc)).1 t x)
  | ret c r x hc hst =>
    obtain ⟨j, rfl, h2, h3, h4, h5⟩ := h.runs hc hst
    obtain ⟨g1, g2, g3⟩ := h5.ret
    exact h.ends (q := { r with status := .done x }) h2 h3 h4 (.inl ⟨x, rfl⟩) g1 (fun y hy => by cases hy; exact ⟨g2, g3⟩)
      (fun p hp => by cases hp)
  | panic c r k hc hst =>
    obtain ⟨j, rfl, h2, h3, h4, h5⟩ := h.runs hc hst
    obtain ⟨g1, g2⟩ := h5.panic
    exact h.ends (q := { r with status := .panicked k }) h2 h3 h4 (.inr ⟨k, rfl⟩) g1 (fun y hy => by cases hy)
      (fun p hp => by cases hp; exact g2)
  | reserveMax n hi =>
    rcases h.state with ⟨-, h1⟩ | ⟨j, q, p', h1, h2, h3, h4, -⟩
    · obtain ⟨g1, g2⟩ := κ.mem.pol.reserve_ok n h1.good
      exact ⟨h.bad, h.le, Nat.le_trans h.max g1, h.known,
        .inl ⟨hi, h1.reserved, h1.written, h1.st, h1.val, h1.cap, h1.alloc, h1.growing, g2⟩, h.done, h.panicked⟩
    · exact absurd ⟨q, p', h2, rfl, h4⟩ (hi _ q.op)

theorem Leads.reach {m : Mem α} (hr : Reach m κ0) (h : κ0.Leads κ) : Reach m κ := by
  induction h with
  | refl => exact hr
  | step _ hs ih => exact ih.step hs

theorem SInv.leads {m : Mem α} (h : SInv N mx vs ops κ0) (hr : Reach m κ0) (hl : κ0.Leads κ)
    (hsub : ∀ (k : Nat) op, κ.Called (N + k) op → ops[k]? = some op)
    (hfit : ∀ (k : Nat) op, ops[k]? = some op → op.Fits (contentAfter vs (ops.take k)) mx) (ht : κ.InTurn N) : SInv N mx vs ops κ := by
  induction hl with
  | refl => exact h
  | step hl hs ih =>
    have hr' := Leads.reach hr hl
    have he := hs.extends hr'.new
    exact (ih (fun k op hc => hsub k op (he.called hc)) (he.inTurn hr' ht)).step hr' hs hsub hfit ht

theorem step_ne (p : Prog α γ) : ∀ a again k b, p = .step a again k → k b ≠ p := by
  induction p with
  | ret x => intro a again k b h; cases h
  | panic x => intro a again k b h; cases h
  | step a again k ih =>
    intro a' again' k' b h
    cases h
    exact fun heq => ih b a again k b heq rfl

/-- The running call never waits. -/
theorem SInv.moves {m : Mem α} (h : SInv N mx vs ops κ) (hr : Reach m κ) (hc : κ.Running c op) :
    (∃ κ', κ.Moves c κ') ∧ ∀ κ', κ.Moves c κ' → κ.Advances c κ' := by
  obtain ⟨r, p, hc, rfl, hst⟩ := hc
  obtain ⟨j, rfl, h2, h3, h4, h5⟩ := h.runs hc hst
  refine ⟨?_, fun κ' hm => ⟨hm, ?_⟩⟩
  · rcases p with x | k | ⟨a, again, k⟩
    · exact ⟨_, r, hc, .inr (.inl ⟨x, hst, rfl⟩)⟩
    · exact ⟨_, r, hc, .inr (.inr ⟨k, hst, rfl⟩)⟩
    · obtain ⟨t, V', m', b, he⟩ := (h5.step ((binv hr).views _ _ hc)).2.1
      exact ⟨_, r, hc, .inl ⟨a, again, k, t, V', m', b, hst, he, rfl⟩⟩
  · obtain ⟨r', hc', hm⟩ := hm
    rw [hc] at hc'; cases hc'
    have here : κ.at' (N + j) = some (.running p) := by unfold Cfg.at'; rw [hc]; simp [hst]
    rw [here]
    rcases hm with ⟨a, again, k, t, V, m, b, hr', he, rfl⟩ | ⟨x, hr', rfl⟩ | ⟨k, hr', rfl⟩
    · rw [hst] at hr'; cases hr'
      have hb := ((h5.step ((binv hr).views _ _ hc)).2.2 t V m b he).1
      unfold Cfg.at'
      rw [hb]
      simp only [upd_same, Option.map_some, Bool.false_eq_true, if_false]
      rw [Ne, Option.some.injEq, Status.running.injEq]
      exact step_ne _ a again k b rfl
    · unfold Cfg.at'
      simp only [upd_same, Option.map_some]
      intro heq; cases heq
    · unfold Cfg.at'
      simp only [upd_same, Option.map_some]
      intro heq; cases heq

theorem Cfg.Moves.called {d : Cid} (h : κ.Moves c κ') (hc : κ'.Called d op) : κ.Called d op := by
  have key : ∀ {r q : Rec α β} {m : WMem α}, κ.calls c = some r → q.op = r.op →
      Cfg.Called { κ with mem := m, calls := upd κ.calls c (some q) } d op → κ.Called d op := by
    rintro r q m hr hq ⟨s, hs, rfl⟩
    change upd κ.calls c (some q) d = some s at hs
    rw [upd_apply] at hs
    split at hs
    · next he => cases hs; exact ⟨r, by rw [he]; exact hr, hq.symm⟩
    · exact ⟨s, hs, rfl⟩
  obtain ⟨r, hr, ⟨a, again, k, t, V, m, b, -, -, rfl⟩ | ⟨x, -, rfl⟩ | ⟨k, -, rfl⟩⟩ := h
  · exact key (q := { r with view := V, status := .running (if again b then .step a again k else k b) }) hr rfl hc
  · exact key (q := { r with status := .done x }) (m := κ.mem) hr rfl hc
  · exact key (q := { r with status := .panicked k }) (m := κ.mem) hr rfl hc

theorem Extends.hb (h : Extends κ κ') {c d : Cid} (hh : κ.HB c d) : κ'.HB c d := by
  induction hh with
  | one h1 hc =>
    obtain ⟨r', h2, -, h3⟩ := h.2 _ _ h1
    exact .one h2 (by rw [h3]; exact hc)
  | trans _ _ ih1 ih2 => exact ih1.trans ih2

/-- The running call can be run to its end. -/
theorem SInv.finishes {m : Mem α} (hfit : ∀ (k : Nat) op, ops[k]? = some op → op.Fits (contentAfter vs (ops.take k)) mx)
    (p : Prog α (Ret α β)) : ∀ {κ : Cfg α β}, SInv N mx vs ops κ → Reach m κ →
      (∀ (k : Nat) op, κ.Called (N + k) op → ops[k]? = some op) → κ.InTurn N → ∀ {r}, κ.calls c = some r → r.status = .running p →
      ∃ κ', κ.Runs κ' ∧ Reach m κ' ∧ SInv N mx vs ops κ' ∧ κ'.next = κ.next ∧ κ'.Over c r.op := by
  have move : ∀ {κ κ' : Cfg α β}, SInv N mx vs ops κ → Reach m κ → (∀ (k : Nat) op, κ.Called (N + k) op → ops[k]? = some op) →
      κ.InTurn N → κ.Moves c κ' → SInv N mx vs ops κ' ∧ Reach m κ' ∧ (∀ (k : Nat) op, κ'.Called (N + k) op → ops[k]? = some op) ∧
      κ'.InTurn N ∧ κ'.next = κ.next := by
    intro κ κ' h hr hsub ht hm
    have he := hm.step.extends hr.new
    have hsub' : ∀ (k : Nat) op, κ'.Called (N + k) op → ops[k]? = some op := fun k op hc => hsub k op (hm.called hc)
    have ht' : κ'.InTurn N := fun a b o o' ha hb hn hlt => he.hb (ht a b o o' (hm.called ha) (hm.called hb) hn hlt)
    refine ⟨h.step hr hm.step hsub' hfit ht', hr.step hm.step, hsub', ht', ?_⟩
    obtain ⟨r, -, ⟨a, again, k, t, V, m, b, -, -, rfl⟩ | ⟨x, -, rfl⟩ | ⟨k, -, rfl⟩⟩ := hm <;> rfl
  induction p with
  | ret x =>
    intro κ h hr hsub ht r hc hst
    have hm : κ.Moves c _ := ⟨r, hc, .inr (.inl ⟨x, hst, rfl⟩)⟩
    obtain ⟨h1, h2, -, -, h3⟩ := move h hr hsub ht hm
    exact ⟨_, .step .refl hm, h2, h1, h3, .inl ⟨x, _, upd_same _ _ _, rfl, rfl⟩⟩
  | panic x =>
    intro κ h hr hsub ht r hc hst
    have hm : κ.Moves c _ := ⟨r, hc, .inr (.inr ⟨x, hst, rfl⟩)⟩
    obtain ⟨h1, h2, -, -, h3⟩ := move h hr hsub ht hm
    exact ⟨_, .step .refl hm, h2, h1, h3, .inr ⟨x, _, upd_same _ _ _, rfl, rfl⟩⟩
  | step a again k ih =>
    intro κ h hr hsub ht r hc hst
    obtain ⟨j, -, -, -, -, h5⟩ := h.runs hc hst
    obtain ⟨-, ⟨t, V', m', b, he⟩, h6⟩ := h5.step ((binv hr).views _ _ hc)
    have hm : κ.Moves c _ := ⟨r, hc, .inl ⟨a, again, k, t, V', m', b, hst, he, rfl⟩⟩
    obtain ⟨h1, h2, h3, h4, hn⟩ := move h hr hsub ht hm
    obtain ⟨κ', g1, g2, g3, g4, g5⟩ := ih b h1 h2 h3 h4 (upd_same _ _ _) (by rw [(h6 t V' m' b he).1]; rfl)
    exact ⟨κ', (Cfg.Runs.refl.step hm).trans g1, g2, g3, g4.trans hn, g5⟩

/-- All growth calls have returned. -/
theorem settled_rep_of {l : List α} (S : Settled l κ) (hall : ∀ c op k, κ.Called c op → op.size = some k → ∃ x, κ.Returned c op x) :
    ∃ vs : List α, κ.mem.settled.Rep vs := by
  have noPanic : ∀ c op k n, κ.Panicked c op k → op.size = some n → False := by
    rintro c op k n ⟨r, h1, h2, h3⟩ hn
    obtain ⟨x, r', h1', -, h3'⟩ := hall c op n ⟨r, h1, h2⟩ hn
    rw [h1] at h1'; cases h1'
    rw [h3] at h3'; cases h3'
  have hval : ∀ i, i < κ.mem.settled.reserved → (κ.mem.val i).isSome := fun i hi => by
    by_cases hil : i < l.length
    · exact S.first i hil
    · obtain ⟨c, op, n, hc, hs, ha | ⟨k, hk⟩⟩ := S.rest i (by omega) hi
      · exact S.added c i ha
      · exact (noPanic c op k n hk hs).elim
  obtain ⟨vs, h1, -⟩ := S.rep (Nat.le_of_not_lt fun hlt => Nat.lt_irrefl _ (S.bound _ (hval _ hlt)).2) hval
  exact ⟨vs, h1⟩

theorem holds_unique {M : Mem α} {vs' : List α} (h : M.Holds vs) (h' : M.Holds vs') : vs = vs' :=
  List.ext_getElem? fun i => by rw [← h i, ← h' i]

/-- Exclusive access after concurrent use. -/
theorem SInv.start {m : Mem α} {l : List α} (hm : InitMem m l) (h : Reach m κ) {D : Mode}
    (ho : ∀ c op, κ.Called c op → Allowed D op) (hV : κ.Exclusive V)
    (hall : ∀ c op k, κ.Called c op → op.size = some k → ∃ x, κ.Returned c op x) (hvs : κ.mem.settled.Holds vs) :
    SInv κ.next κ.mem.maxCap vs ops κ := by
  obtain ⟨vs', hrep⟩ := settled_rep_of (settled hm h ho hV.idle) hall
  obtain rfl := holds_unique hvs hrep.holds
  obtain ⟨K, K0, hW⟩ := winv hm h ho
  refine ⟨hW.bad, Nat.le_refl _, Nat.le_refl _, fun c r x hc hx i hi => ?_, .inl ⟨hV.idle, ?_⟩, ?_, ?_⟩
  · have hD := hW.done ⟨r, hc, rfl, hx⟩
    have : (K c).V i := hi.elim (fun h => (hD.el i h).1) fun h => (hD.pt i h).1
    exact past_val hW ((hW.k c).v i this)
  · rw [Nat.sub_self]; exact hrep
  · intro k r x hc
    rw [h.new _ (Nat.le_add_right _ _)] at hc; cases hc
  · intro k r x hc
    rw [h.new _ (Nat.le_add_right _ _)] at hc; cases hc

end Verif.Weak
