import Verif.Weak.SpecInterleave
import Verif.Weak.Alone
import Verif.Props.Weak
import Verif.Proof.Sound
import Verif.Proof.Quiet
import Verif.Proof.Fair
import Mathlib.Tactic.Choose

/-!
# Interleavings are executions under weak memory

Helper file (no property statements): a call that always reads the newest message, and begins with the knowledge of all calls that are over,
acts as in the interleaving.
-/

namespace Verif.Weak

variable {α β γ : Type}

/-- The newest messages are the memory `M`. -/
structure Latest (m : WMem α) (M : Mem α) : Prop where
  reserved : M.reserved = lastVal m.res
  written : M.written = lastVal m.written
  cap : M.cap = lastVal m.cap
  alloc : M.alloc = m.alloc
  maxCap : M.maxCap = m.maxCap
  pol : M.pol = m.pol
  st : M.st = lastSt m
  val : M.val = m.val

theorem Latest.init (M : Mem α) (h : M.alloc = M.cap) : Latest (WMem.init M) M :=
  ⟨rfl, rfl, rfl, h, rfl, rfl, rfl, rfl⟩

variable {σ₀ : SpecSt α} {w w' : World α} {c : Cid} {m m' : WMem α} {V V' : View}

/-- Reading the newest message gives the response of the interleaving, unless it is bad. -/
theorem Latest.exec (h : Latest m w.mem) (hin : V.In m) (hI : Verif.Inv σ₀ w) {a : Act α} {b : a.Resp} (he : w.exec c a = some (w', b)) :
    ∃ t, (∃ x, exec a t V m = .bad x) ∨ ∃ V' m', exec a t V m = .ok V' m' b ∧ Latest m' w'.mem := by
  have hM := World.exec_mem he
  generalize w'.mem = M' at hM ⊢
  clear he
  obtain ⟨r1, hr1, hl1⟩ := newest_some hin.res
  obtain ⟨r2, hr2, hl2⟩ := newest_some hin.written
  obtain ⟨r3, hr3, hl3⟩ := newest_some hin.cap
  have e1 := lastVal_eq hl1
  have e2 := lastVal_eq hl2
  have e3 := lastVal_eq hl3
  have i1 := hin.res
  have i2 := hin.written
  have i3 := hin.cap
  cases a with
  | resFetchAdd k o =>
    cases hM
    refine ⟨m.res.length - 1, .inr ⟨_, _, by simp only [Weak.exec, place_newest hin.res, hr1]; rw [h.reserved, e1], ?_⟩⟩
    exact ⟨by simp only [lastVal_append, h.reserved, e1], h.written, h.cap, h.alloc, h.maxCap, h.pol, h.st, h.val⟩
  | resLoad o =>
    cases hM
    exact ⟨m.res.length - 1, .inr ⟨_, _, by simp only [Weak.exec, hr1]; rw [if_pos (by omega), h.reserved, e1], h⟩⟩
  | writtenLoad o =>
    cases hM
    exact ⟨m.written.length - 1, .inr ⟨_, _, by simp only [Weak.exec, hr2]; rw [if_pos (by omega), h.written, e2], h⟩⟩
  | writtenFetchMax k o =>
    cases hM
    refine ⟨m.written.length - 1, .inr ⟨_, _, by simp only [Weak.exec, place_newest hin.written, hr2]; rfl, ?_⟩⟩
    exact ⟨h.reserved, by simp only [lastVal_append, h.written, e2], h.cap, h.alloc, h.maxCap, h.pol, h.st, h.val⟩
  | capLoad o =>
    cases hM
    exact ⟨m.cap.length - 1, .inr ⟨_, _, by simp only [Weak.exec, hr3]; rw [if_pos (by omega), h.cap, e3], h⟩⟩
  | maxCapLoad =>
    cases hM
    exact ⟨0, .inr ⟨_, _, by simp only [Weak.exec]; rw [h.maxCap], h⟩⟩
  | growAlloc k =>
    simp only [Act.exec] at hM
    split at hM
    · cases hM
    next hgr =>
    have hal : w.mem.alloc = w.mem.cap := hI.grow_none (by
      have := hI.growing
      rcases hx : w.grower with _ | d
      · rfl
      · rw [hx] at this; exact absurd this (by simpa using hgr))
    cases hM
    refine ⟨0, ?_⟩
    by_cases hs : V.sees m.acc (· == .grow) = true
    swap; · exact .inl ⟨_, by simp only [Weak.exec]; rw [if_neg hs]⟩
    refine .inr ⟨_, _, by simp only [Weak.exec]; rw [if_pos hs], ?_⟩
    refine ⟨h.reserved, h.written, h.cap, ?_, h.maxCap, h.pol, ?_, ?_⟩
    · show w.mem.pol.grow w.mem.cap k = m.pol.grow m.alloc k
      rw [h.pol, ← h.alloc, hal]
    · show (fun i => _) = lastSt m
      rw [← h.st]
      funext i
      dsimp only
      split
      · next hi =>
        rw [(hI.st_none i).2]
        rcases hv : w.spec.val i with _ | v
        · rfl
        · have := hI.pub_cap i (by rw [hv]; rfl); have := hI.cap_alloc; omega
      · rfl
    · show (fun i => _) = m.val
      rw [← h.val]
      funext i
      dsimp only
      split
      · next hi => rw [hI.uninit i (Nat.le_trans hI.cap_alloc hi.1)]
      · rfl
  | growPublish o =>
    simp only [Act.exec] at hM
    split at hM
    swap; · cases hM
    cases hM
    refine ⟨m.cap.length - 1, ?_⟩
    by_cases hs : V.sees m.acc (· == .grow) = true
    swap; · exact .inl ⟨_, by simp only [Weak.exec]; rw [if_neg hs]⟩
    refine .inr ⟨_, _, by simp only [Weak.exec]; rw [if_pos hs]; simp only [place_newest hin.cap]; rfl, ?_⟩
    exact ⟨h.reserved, h.written, by simp only [lastVal_append, h.alloc], h.alloc, h.maxCap, h.pol, h.st, h.val⟩
  | stLoad i o =>
    simp only [Act.exec] at hM
    split at hM
    swap; · cases hM
    cases hM
    obtain ⟨r, hr, hl⟩ := newest_some (hin.st i)
    have := hin.st i
    refine ⟨(m.st i).length - 1, ?_⟩
    by_cases hu : m.usable V i = true
    swap; · exact .inl ⟨_, by simp only [Weak.exec]; rw [if_neg hu]⟩
    exact .inr ⟨_, _, by simp only [Weak.exec]; rw [if_pos hu]; simp only [hr]; rw [if_pos (by omega), h.st, lastSt_eq hl], h⟩
  | stCas i e s o f =>
    simp only [Act.exec] at hM
    split at hM
    swap; · cases hM
    obtain ⟨r, hr, hl⟩ := newest_some (hin.st i)
    have := hin.st i
    refine ⟨(m.st i).length - 1, ?_⟩
    by_cases hu : m.usable V i = true
    swap; · exact .inl ⟨_, by simp only [Weak.exec]; rw [if_neg hu]⟩
    have e0 : w.mem.st i = r.val := by rw [h.st, lastSt_eq hl]
    right
    split at hM
    · next hv =>
      cases hM
      refine ⟨_, _, by
        simp only [Weak.exec]; rw [if_pos hu]; simp only [hr]; rw [if_pos (e0.symm.trans hv)]; simp only [place_newest (hin.st i)]; rfl, ?_⟩
      refine ⟨h.reserved, h.written, h.cap, h.alloc, h.maxCap, h.pol, ?_, h.val⟩
      funext j
      rw [lastSt_upd, ← h.st]; rfl
    · next hv =>
      cases hM
      refine ⟨_, _, by
        simp only [Weak.exec]; rw [if_pos hu]; simp only [hr]; rw [if_neg (fun x => hv (e0.trans x)), if_pos (by omega), e0], h⟩
  | stStore i s o =>
    simp only [Act.exec] at hM
    split at hM
    swap; · cases hM
    cases hM
    refine ⟨(m.st i).length - 1, ?_⟩
    by_cases hu : m.usable V i = true
    swap; · exact .inl ⟨_, by simp only [Weak.exec]; rw [if_neg hu]⟩
    refine .inr ⟨_, _, by simp only [Weak.exec]; rw [if_pos hu]; simp only [place_newest (hin.st i)]; rfl, ?_⟩
    refine ⟨h.reserved, h.written, h.cap, h.alloc, h.maxCap, h.pol, ?_, h.val⟩
    funext j
    rw [lastSt_upd, ← h.st]; rfl
  | valRead i =>
    simp only [Act.exec] at hM
    split at hM
    swap; · cases hM
    split at hM
    swap; · cases hM
    next v hv =>
    cases hM
    refine ⟨0, ?_⟩
    by_cases hu : m.usable V i = true
    swap; · exact .inl ⟨_, by simp only [Weak.exec]; rw [if_neg hu]⟩
    by_cases hs : V.sees m.acc (· == .write i) = true
    swap; · exact .inl ⟨_, by simp only [Weak.exec]; rw [if_pos hu, if_neg hs]⟩
    rw [h.val] at hv
    refine .inr ⟨_, _, by simp only [Weak.exec]; rw [if_pos hu, if_pos hs]; simp only [hv]; rfl, ?_⟩
    exact ⟨h.reserved, h.written, h.cap, h.alloc, h.maxCap, h.pol, h.st, h.val⟩
  | valWrite i v =>
    simp only [Act.exec] at hM
    split at hM
    swap; · cases hM
    cases hM
    refine ⟨0, ?_⟩
    by_cases hu : m.usable V i = true
    swap; · exact .inl ⟨_, by simp only [Weak.exec]; rw [if_neg hu]⟩
    by_cases hs : V.sees m.acc (fun a => a == .write i || a == .read i) = true
    swap; · exact .inl ⟨_, by simp only [Weak.exec]; rw [if_pos hu, if_neg hs]⟩
    refine .inr ⟨_, _, by simp only [Weak.exec]; rw [if_pos hu, if_pos hs], ?_⟩
    exact ⟨h.reserved, h.written, h.cap, h.alloc, h.maxCap, h.pol, h.st, by simp only [h.val]⟩
  | valSwap i j =>
    simp only [Act.exec] at hM
    split at hM
    swap; · cases hM
    split at hM
    swap; · cases hM
    next v u hv hu0 =>
    cases hM
    rw [h.val] at hv hu0
    refine ⟨0, ?_⟩
    by_cases hu : (m.usable V i && m.usable V j) = true
    swap; · exact .inl ⟨_, by simp only [Weak.exec]; rw [if_neg hu]⟩
    by_cases hij : i = j
    · exact .inl ⟨_, by simp only [Weak.exec]; rw [if_pos hu, if_pos hij]⟩
    by_cases hs : V.sees m.acc (fun a => a == .write i || a == .read i || a == .write j || a == .read j) = true
    swap; · exact .inl ⟨_, by simp only [Weak.exec]; rw [if_pos hu, if_neg hij, if_neg hs]⟩
    refine .inr ⟨_, _, by simp only [Weak.exec]; rw [if_pos hu, if_neg hij, if_pos hs]; simp only [hv, hu0]; rfl, ?_⟩
    exact ⟨h.reserved, h.written, h.cap, h.alloc, h.maxCap, h.pol, h.st, by simp only [h.val]⟩

/-! ## configurations -/

/-- The status of a call without the times. -/
def timeless : Verif.Status α β → Status α β
  | .running p => .running p
  | .done x _ _ => .done x
  | .panicked k _ _ => .panicked k

/-- The same memory, the same calls at the same place of their programs, in the same order. -/
structure Mirrors (κ : Verif.Cfg α β) (κ' : Cfg α β) : Prop where
  mem : Latest κ'.mem κ.w.mem
  calls : ∀ c, (κ.calls c).map (fun r => (r.op, timeless r.status)) = (κ'.calls c).map fun r => (r.op, r.status)
  next : κ'.next = κ.next
  bad : κ'.bad = none
  hb : ∀ d r, κ'.calls d = some r → ∀ c, c ∈ r.hb ↔ κ.Before c d

variable {κ κ₂ : Verif.Cfg α β} {κ' : Cfg α β} {l : List α} {M : Mem α}

theorem Mirrors.to (h : Mirrors κ κ') {c : Cid} {r : Verif.Rec α β} (hc : κ.calls c = some r) :
    ∃ r', κ'.calls c = some r' ∧ r'.op = r.op ∧ r'.status = timeless r.status := by
  have := h.calls c
  rw [hc] at this
  rcases hx : κ'.calls c with _ | r' <;> rw [hx] at this <;> simp at this
  exact ⟨r', rfl, this.1.symm, this.2.symm⟩

theorem Mirrors.from (h : Mirrors κ κ') {c : Cid} {r' : Rec α β} (hc : κ'.calls c = some r') :
    ∃ r, κ.calls c = some r ∧ r'.op = r.op ∧ r'.status = timeless r.status := by
  have := h.calls c
  rw [hc] at this
  rcases hx : κ.calls c with _ | r <;> rw [hx] at this <;> simp at this
  exact ⟨r, rfl, this.1.symm, this.2.symm⟩

theorem Mirrors.called (h : Mirrors κ κ') (c : Cid) (op : Op α β) : κ'.Called c op ↔ κ.Called c op := by
  constructor
  · rintro ⟨r', hc, rfl⟩
    obtain ⟨⟨op, ct, st, s⟩, h1, h2, -⟩ := h.from hc
    exact ⟨ct, st, s, by rw [h1, h2]⟩
  · rintro ⟨ct, st, s, hc⟩
    obtain ⟨r', h1, h2, -⟩ := h.to hc
    exact ⟨r', h1, h2⟩

theorem Mirrors.running (h : Mirrors κ κ') (c : Cid) (op : Op α β) : κ'.Running c op ↔ κ.Running c op := by
  constructor
  · rintro ⟨r', p, hc, rfl, hs⟩
    obtain ⟨⟨op, ct, st, s⟩, h1, h2, h3⟩ := h.from hc
    cases s <;> rw [hs] at h3 <;> cases h3
    exact ⟨ct, st, p, by rw [h1, h2]⟩
  · rintro ⟨ct, st, p, hc⟩
    obtain ⟨r', h1, h2, h3⟩ := h.to hc
    exact ⟨r', p, h1, h2, h3⟩

theorem Mirrors.returned (h : Mirrors κ κ') (c : Cid) (op : Op α β) (x : Ret α β) : κ'.Returned c op x ↔ κ.Returned c op x := by
  constructor
  · rintro ⟨r', hc, rfl, hs⟩
    obtain ⟨⟨op, ct, st, s⟩, h1, h2, h3⟩ := h.from hc
    cases s <;> rw [hs] at h3 <;> cases h3
    exact ⟨ct, st, _, _, by rw [h1, h2]⟩
  · rintro ⟨ct, st, et, fin, hc⟩
    obtain ⟨r', h1, h2, h3⟩ := h.to hc
    exact ⟨r', h1, h2, h3⟩

theorem Mirrors.panicked (h : Mirrors κ κ') (c : Cid) (op : Op α β) (k : PanicKind) : κ'.Panicked c op k ↔ κ.Panicked c op k := by
  constructor
  · rintro ⟨r', hc, rfl, hs⟩
    obtain ⟨⟨op, ct, st, s⟩, h1, h2, h3⟩ := h.from hc
    cases s <;> rw [hs] at h3 <;> cases h3
    exact ⟨ct, st, _, _, by rw [h1, h2]⟩
  · rintro ⟨ct, st, et, fin, hc⟩
    obtain ⟨r', h1, h2, h3⟩ := h.to hc
    exact ⟨r', h1, h2, h3⟩

theorem Mirrors.disciplined (h : Mirrors κ κ') (hd : κ.Disciplined) : κ'.Disciplined := fun c e hc d op hc' =>
  hd c e ((h.called c _).1 hc) d op ((h.called d op).1 hc')

theorem before_trans (hm : InitMem M l) (hr : Verif.Reach M l κ) {a b c : Cid} (h1 : κ.Before a b) (h2 : κ.Before b c) : κ.Before a c := by
  obtain ⟨ra, rb, ha, hb, t, f, he, ht⟩ := h1
  obtain ⟨rb', rc, hb', hc, t', f', he', ht'⟩ := h2
  rw [hb] at hb'; cases hb'
  refine ⟨ra, rc, ha, hc, t, f, he, ?_⟩
  obtain ⟨n, κs, hx, rfl⟩ := hr.exec
  have := (hx.ends hm hb he').1
  omega

theorem Mirrors.order (h : Mirrors κ κ') (hm : InitMem M l) (hr : Verif.Reach M l κ) (c d : Cid) : κ'.HB c d ↔ κ.Before c d := by
  constructor
  · intro hh
    induction hh with
    | one hd hc => exact (h.hb _ _ hd _).1 hc
    | trans _ _ i1 i2 => exact before_trans hm hr i1 i2
  · intro hb
    obtain ⟨r1, r2, h1, h2, -⟩ := id hb
    obtain ⟨r', hr', -⟩ := h.to h2
    exact .one hr' ((h.hb _ _ hr' _).2 hb)

/-- All calls of a list that are over, with what they know together. -/
theorem ended_all (κ' : Cfg α β) : ∀ L : List Cid, ∃ H V, Ended κ' H V ∧
    ∀ c, c ∈ H ↔ c ∈ L ∧ ∃ r, κ'.calls c = some r ∧ ∀ p, r.status ≠ .running p
  | [] => ⟨[], _, .nil, fun c => by simp⟩
  | d :: L => by
    obtain ⟨H, V, hH, hm⟩ := ended_all κ' L
    have skip : (∀ r, κ'.calls d = some r → ∃ p, r.status = .running p) → ∃ H V, Ended κ' H V ∧
        ∀ c, c ∈ H ↔ c ∈ d :: L ∧ ∃ r, κ'.calls c = some r ∧ ∀ p, r.status ≠ .running p := by
      intro hn
      refine ⟨H, V, hH, fun c => ?_⟩
      rw [hm, List.mem_cons]
      constructor
      · exact fun h => ⟨.inr h.1, h.2⟩
      · rintro ⟨rfl | h1, r, h2, h3⟩
        · obtain ⟨p, hp⟩ := hn r h2
          exact absurd hp (h3 p)
        · exact ⟨h1, r, h2, h3⟩
    have take : ∀ r, κ'.calls d = some r → (∀ p, r.status ≠ .running p) → Ended κ' (d :: H) (r.view.join V) → ∃ H V, Ended κ' H V ∧
        ∀ c, c ∈ H ↔ c ∈ d :: L ∧ ∃ r, κ'.calls c = some r ∧ ∀ p, r.status ≠ .running p := by
      intro r hr hn he
      refine ⟨_, _, he, fun c => ?_⟩
      rw [List.mem_cons, List.mem_cons, hm]
      constructor
      · rintro (rfl | h)
        · exact ⟨.inl rfl, r, hr, hn⟩
        · exact ⟨.inr h.1, h.2⟩
      · rintro ⟨rfl | h1, h2⟩
        · exact .inl rfl
        · exact .inr ⟨h1, h2⟩
    rcases hr : κ'.calls d with _ | ⟨op, hb, st, vw, p | x | k⟩
    · exact skip fun r h => by rw [hr] at h; cases h
    · exact skip fun r h => by rw [hr] at h; cases h; exact ⟨p, rfl⟩
    · exact take _ hr (fun p h => by cases h) (.done hr rfl hH)
    · exact take _ hr (fun p h => by cases h) (.panicked hr rfl hH)

/-- Ending a call now changes nothing in the order of the calls made so far. -/
theorem before_set (hI : CfgInv (.ofList l) κ) {c : Cid} {r : Verif.Rec α β} {s : Verif.Status α β} {w : World α} {n : Nat} {u : Bool}
    (hc : κ.calls c = some r) (hr : ∃ p, r.status = .running p) (hs : ∀ t f, s.ended = some (t, f) → t = κ.clock) (a d : Cid) :
    (⟨w, κ.setStatus c r s, κ.next, n, u⟩ : Verif.Cfg α β).Before a d ↔ κ.Before a d := by
  obtain ⟨p, hp⟩ := hr
  have hlt : ∀ d q, κ.calls d = some q → q.callT < κ.clock := fun d q hd => (hI.snap _ _ ⟨d, q, hd, .inl ⟨rfl, rfl⟩⟩).1
  have hcall : ∀ d, (κ.setStatus c r s d).map Rec.callT = (κ.calls d).map Rec.callT := by
    intro d
    unfold Verif.Cfg.setStatus
    rw [upd_apply]
    split
    · next h => subst h; rw [hc]; rfl
    · rfl
  constructor
  · rintro ⟨r1, r2, h1, h2, t, f, he, ht⟩
    change κ.setStatus c r s a = some r1 at h1
    change κ.setStatus c r s d = some r2 at h2
    have h3 := hcall d
    rw [h2] at h3
    rcases hx : κ.calls d with _ | q <;> rw [hx] at h3 <;> simp at h3
    have := hlt d q hx
    unfold Verif.Cfg.setStatus at h1
    rw [upd_apply] at h1
    split at h1
    · cases h1
      have := hs t f he
      omega
    · exact ⟨r1, q, h1, hx, t, f, he, by omega⟩
  · rintro ⟨r1, r2, h1, h2, t, f, he, ht⟩
    have h3 := hcall d
    rw [h2] at h3
    rcases hx : κ.setStatus c r s d with _ | q <;> rw [hx] at h3 <;> simp at h3
    have hne : a ≠ c := by
      rintro rfl
      rw [hc] at h1; cases h1
      rw [hp] at he; cases he
    refine ⟨r1, q, ?_, hx, t, f, he, by omega⟩
    show κ.setStatus c r s a = some r1
    unfold Verif.Cfg.setStatus
    rw [upd_apply, if_neg hne, h1]

theorem Mirrors.set (h : Mirrors κ κ') (hI : CfgInv (.ofList l) κ) {c : Cid} {r : Verif.Rec α β} {r' q' : Rec α β} {s : Verif.Status α β}
    {w : World α} {n : Nat} {u : Bool} {m : WMem α} (hc : κ.calls c = some r) (hr : ∃ p, r.status = .running p)
    (hs : ∀ t f, s.ended = some (t, f) → t = κ.clock) (hc' : κ'.calls c = some r') (h1 : q'.op = r.op) (h2 : q'.hb = r'.hb)
    (h3 : q'.status = timeless s) (hm : Latest m w.mem) :
    Mirrors (⟨w, κ.setStatus c r s, κ.next, n, u⟩ : Verif.Cfg α β) { κ' with mem := m, calls := upd κ'.calls c (some q') } where
  mem := hm
  calls d := by
    show (κ.setStatus c r s d).map _ = (upd κ'.calls c (some q') d).map _
    unfold Verif.Cfg.setStatus
    rw [upd_apply, upd_apply]
    split
    · simp only [Option.map_some, h1, h3]
    · exact h.calls d
  next := h.next
  bad := h.bad
  hb d q hd a := by
    rw [before_set hI hc hr hs]
    change upd κ'.calls c (some q') d = some q at hd
    rw [upd_apply] at hd
    split at hd
    · next e =>
      cases hd
      subst e
      rw [h2]
      exact h.hb _ _ hc' a
    · exact h.hb d q hd a

theorem Mirrors.moves (hm : InitMem M l) (hr : Verif.Reach M l κ) {c : Cid} (hmv : κ.Moves c κ₂) (hd : κ₂.Disciplined) (hr' : Reach M κ')
    (h : Mirrors κ κ') : ∃ κ₂', κ'.Moves c κ₂' ∧ Mirrors κ₂ κ₂' := by
  have hI := hr.inv hm
  have hnb : ∀ x, ¬ Step κ' { κ' with bad := some x } ∨ ¬ κ.Disciplined := fun x => by
    by_contra hx
    rw [not_or, not_not, not_not] at hx
    have hr2 := Reach.step hr' hx.1
    have hdx : ({ κ' with bad := some x } : Cfg α β).Disciplined := h.disciplined hx.2
    obtain ⟨K, K0, hi⟩ := winv_of hm hr2 hdx
    have := hi.bad
    cases this
  obtain ⟨r, hc, ⟨a, again, k, w', b, hrun, he, rfl⟩ | ⟨x, hrun, rfl⟩ | ⟨k, hrun, rfl⟩⟩ := hmv
  · have hcalled : ∀ d op, κ.Called d op → ∃ ct st s,
        κ.setStatus c r (.running (if again b then .step a again k else k b)) d = some ⟨op, ct, st, s⟩ := fun d op hcd => by
      obtain ⟨ct, st, s, hcd⟩ := hcd
      unfold Verif.Cfg.setStatus
      rw [upd_apply]
      split
      · next e => subst e; rw [hc] at hcd; cases hcd; exact ⟨_, _, _, rfl⟩
      · exact ⟨ct, st, s, hcd⟩
    have hdk : κ.Disciplined := fun c e h1 d op h2 => hd c e (hcalled c _ h1) d op (hcalled d op h2)
    obtain ⟨r', h1, h2, h3⟩ := h.to hc
    rw [hrun] at h3
    obtain ⟨t, ⟨x, hx⟩ | ⟨V, m, hx, hL⟩⟩ := h.mem.exec ((binv hr').views _ _ h1) hI.inv he
    · rcases hnb x with hn | hn
      · exact absurd (Step.bad κ' c r' a again k t x h1 h3 hx) hn
      · exact absurd hdk hn
    · exact ⟨_, ⟨r', h1, .inl ⟨a, again, k, t, V, m, b, h3, hx, rfl⟩⟩,
        h.set hI hc ⟨_, hrun⟩ (fun t f h => by cases h) h1 h2 rfl rfl hL⟩
  · obtain ⟨r', h1, h2, h3⟩ := h.to hc
    rw [hrun] at h3
    exact ⟨_, ⟨r', h1, .inr (.inl ⟨x, h3, rfl⟩)⟩, h.set hI hc ⟨_, hrun⟩ (fun t f h => by cases h; rfl) h1 h2 rfl rfl h.mem⟩
  · obtain ⟨r', h1, h2, h3⟩ := h.to hc
    rw [hrun] at h3
    exact ⟨_, ⟨r', h1, .inr (.inr ⟨k, h3, rfl⟩)⟩, h.set hI hc ⟨_, hrun⟩ (fun t f h => by cases h; rfl) h1 h2 rfl rfl h.mem⟩

theorem Mirrors.step (hm : InitMem M l) (hr : Verif.Reach M l κ) (hs : Verif.Step κ κ₂) (hd : κ₂.Disciplined) (hr' : Reach M κ')
    (h : Mirrors κ κ') : ∃ κ₂', Step κ' κ₂' ∧ Mirrors κ₂ κ₂' := by
  have hI := hr.inv hm
  have hI2 := (Verif.Reach.step hr hs).inv hm
  have go : ∀ {c : Cid}, κ.Moves c κ₂ → ∃ κ₂', Step κ' κ₂' ∧ Mirrors κ₂ κ₂' := fun hmv => by
    obtain ⟨κ₂', h1, h2⟩ := h.moves hm hr hmv hd hr'
    exact ⟨κ₂', h1.step, h2⟩
  cases hs with
  | invoke op hn hp =>
    obtain ⟨H, V, hH, hall⟩ := ended_all κ' (List.range κ'.next)
    have hin : ∀ {c : Cid} {r : Verif.Rec α β} {t f}, κ.calls c = some r → r.status.ended = some (t, f) → c ∈ H := by
      intro c r t f hc he
      obtain ⟨r', h1, -, h3⟩ := h.to hc
      refine (hall c).2 ⟨List.mem_range.2 ?_, r', h1, fun p hp => ?_⟩
      · rw [h.next]; exact (hI.next c r hc).2
      · rw [hp] at h3
        rcases r with ⟨o, ct, st, s⟩
        cases s
        · cases he
        · cases h3
        · cases h3
    refine ⟨_, .call κ' op H V hH (fun i hi => ?_) (fun i hi => ?_), ?_⟩
    · obtain ⟨c, x, op', ct, st, et, fin, hc, hx⟩ := hn i hi
      obtain ⟨r', h1, -, h3⟩ := h.to hc
      exact ⟨c, hin hc rfl, r', x, h1, h3, hx⟩
    · obtain ⟨c, x, op', ct, st, et, fin, hc, hx⟩ := hp i hi
      obtain ⟨r', h1, -, h3⟩ := h.to hc
      exact ⟨c, hin hc rfl, r', x, h1, h3, hx⟩
    · have hnew : κ.calls κ.next = none := by
        rcases hx : κ.calls κ.next with _ | r
        · rfl
        · exact absurd (hI.next _ _ hx).2 (Nat.lt_irrefl _)
      have hbef : ∀ a d, d ≠ κ.next → ((⟨κ.w, upd κ.calls κ.next (some ⟨op, κ.clock, κ.w, .running op.prog⟩), κ.next + 1, κ.clock + 1,
          κ.ub⟩ : Verif.Cfg α β).Before a d ↔ κ.Before a d) := by
        intro a d hne
        constructor
        · rintro ⟨r1, r2, h1, h2, t, f, he, ht⟩
          change upd κ.calls _ _ a = _ at h1
          change upd κ.calls _ _ d = _ at h2
          rw [upd_apply] at h1 h2
          rw [if_neg hne] at h2
          split at h1
          · cases h1; cases he
          · exact ⟨r1, r2, h1, h2, t, f, he, ht⟩
        · rintro ⟨r1, r2, h1, h2, t, f, he, ht⟩
          refine ⟨r1, r2, ?_, ?_, t, f, he, ht⟩
          · show upd κ.calls _ _ a = _
            rw [upd_apply, if_neg (by rintro rfl; rw [hnew] at h1; cases h1), h1]
          · show upd κ.calls _ _ d = _
            rw [upd_apply, if_neg hne, h2]
      refine ⟨h.mem, fun d => ?_, ?_, h.bad, fun d q hd a => ?_⟩
      · show (upd κ.calls κ.next _ d).map _ = (upd κ'.calls κ'.next _ d).map _
        rw [upd_apply, upd_apply, h.next]
        split
        · rfl
        · exact h.calls d
      · show κ'.next + 1 = κ.next + 1
        rw [h.next]
      · change upd κ'.calls κ'.next _ d = some q at hd
        rw [upd_apply, h.next] at hd
        split at hd
        · next e =>
          cases hd
          subst e
          rw [hall]
          constructor
          · rintro ⟨-, r', h1, h2⟩
            obtain ⟨r, h3, -, h4⟩ := h.from h1
            have hne : a ≠ κ.next := by rintro rfl; rw [hnew] at h3; cases h3
            have : ∃ t f, r.status.ended = some (t, f) := by
              rcases r with ⟨o, ct, st, p | ⟨x, t, f⟩ | ⟨k, t, f⟩⟩
              · exact absurd h4 (h2 p)
              · exact ⟨t, f, rfl⟩
              · exact ⟨t, f, rfl⟩
            obtain ⟨t, f, he⟩ := this
            refine ⟨r, ⟨op, κ.clock, κ.w, .running op.prog⟩, ?_, ?_, t, f, he, (hI.snap t f ⟨a, r, h3, .inr he⟩).1⟩
            · show upd κ.calls _ _ a = _
              rw [upd_apply, if_neg hne, h3]
            · show upd κ.calls _ _ _ = _
              rw [upd_apply, if_pos rfl]
          · rintro ⟨r1, r2, h1, h2, t, f, he, ht⟩
            change upd κ.calls _ _ a = _ at h1
            rw [upd_apply] at h1
            split at h1
            · cases h1; cases he
            · exact (hall a).1 (hin h1 he)
        · next hne =>
          rw [h.hb d q hd a]
          exact (hbef a d hne).symm
  | act c r a again k w' b hc hrun he => exact go ⟨r, hc, .inl ⟨a, again, k, w', b, hrun, he, rfl⟩⟩
  | ub c r a again k hc hrun he => cases hI2.noUB
  | ret c r x hc hrun => exact go ⟨r, hc, .inr (.inl ⟨x, hrun, rfl⟩)⟩
  | panic c r k hc hrun => exact go ⟨r, hc, .inr (.inr ⟨k, hrun, rfl⟩)⟩
  | reserveMax n hi =>
    refine ⟨_, .reserveMax κ' n fun c op hrun => ?_, ?_⟩
    · obtain ⟨ct, st, p, hc⟩ := (h.running c op).1 hrun
      exact hi c op ct st p hc
    · refine ⟨⟨h.mem.reserved, h.mem.written, h.mem.cap, h.mem.alloc, ?_, h.mem.pol, h.mem.st, h.mem.val⟩, h.calls, h.next, h.bad, h.hb⟩
      show κ.w.mem.pol.reserve κ.w.mem.maxCap n = κ'.mem.pol.reserve κ'.mem.maxCap n
      rw [h.mem.pol, h.mem.maxCap]

theorem Mirrors.init (hm : InitMem M l) : Mirrors (α := α) (β := β) (Verif.Cfg.init M l) (Cfg.init M) :=
  ⟨.init M hm.alloc, fun _ => rfl, rfl, rfl, fun d r hd => by cases hd⟩

theorem Mirrors.shows (h : Mirrors κ κ') (hm : InitMem M l) (hr : Verif.Reach M l κ) : κ'.Shows κ :=
  ⟨h.called, h.running, h.returned, h.panicked, h.order hm hr, h.bad⟩

theorem disciplined_of_step (hI : CfgInv (.ofList l) κ) (hs : Verif.Step κ κ₂) (hd : κ₂.Disciplined) : κ.Disciplined := by
  have hc : ∀ d op, κ.Called d op → κ₂.Called d op := fun d op h => by
    obtain ⟨ct, st, s, h⟩ := h
    have key : ∀ {c r s'}, κ.calls c = some r → ∃ ct st s, κ.setStatus c r s' d = some ⟨op, ct, st, s⟩ := by
      intro c r s' hc
      unfold Verif.Cfg.setStatus
      rw [upd_apply]
      split
      · next e => subst e; rw [hc] at h; cases h; exact ⟨_, _, _, rfl⟩
      · exact ⟨ct, st, s, h⟩
    cases hs with
    | invoke op' hn hp =>
      refine ⟨ct, st, s, ?_⟩
      show upd κ.calls κ.next _ d = _
      have := (hI.next _ _ h).2
      rw [upd_apply, if_neg (Nat.ne_of_lt this), h]
    | act c r a again k w' b hc hrun he => exact key hc
    | ub c r a again k hc hrun he => exact ⟨ct, st, s, h⟩
    | ret c r x hc hrun => exact key hc
    | panic c r k hc hrun => exact key hc
    | reserveMax n hi => exact ⟨ct, st, s, h⟩
  exact fun c e h1 d op h2 => hd c e (hc c _ h1) d op (hc d op h2)

theorem Mirrors.exists (hm : InitMem M l) (hr : Verif.Reach M l κ) (hd : κ.Disciplined) : ∃ κ', Reach M κ' ∧ Mirrors κ κ' := by
  induction hr with
  | init => exact ⟨_, .init, .init hm⟩
  | step hr hs ih =>
    obtain ⟨κ', h1, h2⟩ := ih (disciplined_of_step (hr.inv hm) hs hd)
    obtain ⟨κ₂', h3, h4⟩ := h2.step hm hr hs hd h1
    exact ⟨κ₂', .step h1 h3, h4⟩

/-- The same for infinite executions, step by step. -/
theorem Mirrors.all {κs : Nat → Verif.Cfg α β} (hm : InitMem M l) (hx : Verif.InfExec M l κs) (hd : ∀ t, (κs t).Disciplined)
    (who : Nat → Option Cid) (hw : ∀ t c, who t = some c → (κs t).Moves c (κs (t + 1))) :
    ∃ κ' : Nat → Cfg α β, InfExec M κ' ∧ (∀ t, Mirrors (κs t) (κ' t)) ∧ ∀ t c, who t = some c → (κ' t).Moves c (κ' (t + 1)) := by
  have hr : ∀ t, Verif.Reach M l (κs t) := fun t => (hx.exec t).reach (Nat.le_refl t)
  have next : ∀ t, ∀ q : { q : Cfg α β // Reach M q ∧ Mirrors (κs t) q }, ∃ q' : { q : Cfg α β // Reach M q ∧ Mirrors (κs (t + 1)) q },
      Step q.1 q'.1 ∧ ∀ c, who t = some c → q.1.Moves c q'.1 := by
    rintro t ⟨q, h1, h2⟩
    rcases hwt : who t with _ | c
    · obtain ⟨q', h3, h4⟩ := h2.step hm (hr t) (hx.next t) (hd _) h1
      exact ⟨⟨q', .step h1 h3, h4⟩, h3, fun c h => by cases h⟩
    · obtain ⟨q', h3, h4⟩ := h2.moves hm (hr t) (hw t c hwt) (hd _) h1
      exact ⟨⟨q', .step h1 h3.step, h4⟩, h3.step, fun c h => by cases h; exact h3⟩
  choose f hf using next
  let g : (t : Nat) → { q : Cfg α β // Reach M q ∧ Mirrors (κs t) q } :=
    Nat.rec ⟨Cfg.init M, .init, by rw [hx.init]; exact .init hm⟩ f
  exact ⟨fun t => (g t).1, ⟨rfl, fun t => .inr (hf t (g t)).1⟩, fun t => (g t).2.2, fun t => (hf t (g t)).2⟩

end Verif.Weak
