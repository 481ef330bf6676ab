import Verif.Weak.Taken
import Verif.Weak.Alone

/-!
# The position at which the storage has to grow next belongs to a call that does not get any further

Helper file (no property statements).
-/

namespace Verif.Weak

variable {α β : Type} {D : Mode} {mx n : Nat} {κ κ' : Cfg α β} {K K0 K' K0' : Cid → Know}

/-- Nobody is allocating, and position `j`, the next one to be allocated, belongs to call `c`. -/
structure Stuck (κ : Cfg α β) (K : Cid → Know) (c : Cid) (j : Nat) : Prop where
  cap : lastVal κ.mem.cap = j
  alloc : κ.mem.alloc = j
  own : (K c).R j

theorem Stuck.step (h : WInv D mx n κ K K0) (h' : WInv D mx n κ' K' K0') (P' : PInv n κ' K') (hl : Later κ κ' K K')
    (hs : Step κ κ') {c : Cid} {j : Nat} (hc : κ'.calls c = κ.calls c ∨ ∀ op, ¬ κ'.Running c op) (S : Stuck κ K c j) :
    Stuck κ' K' c j := by
  have hno : ∀ d, ¬ (K' d).G := by
    intro d hG
    obtain ⟨op, hrun⟩ := grower_running h' P' hG
    obtain ⟨⟨r, hr, hgr, hra⟩, -⟩ := (h'.k d).g hG
    have hcap := hl.cap
    rw [S.cap, lastVal_eq hr] at hcap
    have ha := S.alloc
    rcases hs.storage with ⟨-, h2 | h2⟩ | ⟨h1, -⟩
    · omega
    · have hrj : r.val = j := by rw [← S.cap, ← h2, lastVal_eq hr]
      have hdc : d = c := h'.g.disjR d c j (hrj ▸ (h'.k d).gr_r _ hgr) (hl.r c j S.own)
      subst hdc
      rcases hc with hc | hc
      · rw [hl.own d hc] at hG
        obtain ⟨⟨q, hq, -, hqa⟩, -⟩ := (h.k d).g hG
        have := lastVal_eq hq
        have := S.cap
        omega
      · exact hc op hrun
    · exact h1 d op hrun
  obtain ⟨r, -, hr⟩ := newest_some (List.length_pos_iff.2 h'.g.cap_ne)
  have h1 := (h'.g.cap_last hno r hr).1
  rw [← lastVal_eq hr] at h1
  have hcap := S.cap
  have ha := S.alloc
  rcases hs.storage with ⟨-, h2 | h2⟩ | ⟨-, h2⟩
  · exact ⟨by omega, by omega, hl.r c j S.own⟩
  · rw [h2] at h1
    exact ⟨by rw [h2]; exact hcap, by omega, hl.r c j S.own⟩
  · exact ⟨by omega, by omega, hl.r c j S.own⟩

/-- Call `d` has only received positions behind `j`. -/
def Behind (K : Cid → Know) (d : Cid) (j : Nat) : Prop := ∀ i, (K d).R i → j < i

theorem Behind.step (h : WInv D mx n κ K K0) (hl : Later κ κ' K K') {c d : Cid} {j : Nat} (S : Stuck κ K c j) (B : Behind K d j) :
    Behind K' d j := by
  intro i hi
  rcases hl.new d i hi with h1 | h1
  · exact B i h1
  · have := (h.k c).r_rk j S.own
    have := (h.k c).rk.1
    omega

theorem Stuck.no_return (h : WInv D mx n κ K K0) {c d : Cid} {j : Nat} (S : Stuck κ K c j) (B : Behind K d j) {op : Op α β} {x : Ret α β}
    {sz : Nat} (hsz : op.size = some sz) (hpos : 0 < sz) : ¬ κ.Returned d op x := by
  intro hr
  obtain ⟨b, -, -, -, -, h2⟩ := (h.done hr).grow sz hsz
  obtain ⟨h3, -, h4, -⟩ := h2 b (Nat.le_refl _) (by omega)
  have := B b h3
  have := usable_lt ((h.k d).a b h4).1
  have := S.alloc
  omega

/-- Position `alloc` has an owner. -/
theorem stuck_of {N : Nat} (h : WInv D mx n κ K K0) (P : PInv n κ K) (hcap : lastVal κ.mem.cap = κ.mem.alloc) (hN : κ.mem.alloc < N)
    (hr : ∃ r ∈ κ.mem.res, r.val = N) : ∃ c, Stuck κ K c κ.mem.alloc := by
  obtain ⟨r, hr, rfl⟩ := hr
  have hle : r.val ≤ lastVal κ.mem.res := by
    obtain ⟨t, ht⟩ := List.mem_iff_getElem?.1 hr
    obtain ⟨q, hq, hl⟩ := newest_some (List.length_pos_iff.2 h.g.res_ne)
    rw [lastVal_eq hl]
    have := lt_of_some ht
    exact h.g.res_mono t (κ.mem.res.length - 1) r q (by omega) ht hq
  obtain ⟨c, hc⟩ := P.cover κ.mem.alloc (by
    refine Nat.le_of_not_lt fun hn => ?_
    have := usable_lt ((h.k 0).a _ (h.zero _ hn).2.1).1
    omega) (by omega)
  exact ⟨c, hcap, rfl, hc⟩

theorem behind_new (P : PInv n κ K) {d : Cid} (hd : κ.calls d = none) {j : Nat} : Behind K d j := fun i hi => absurd hi (P.idle d hd i).1

theorem not_called {d : Cid} (h : ∀ op, ¬ κ.Called d op) : κ.calls d = none := by
  rcases hc : κ.calls d with _ | r
  · rfl
  · exact absurd ⟨r, hc, rfl⟩ (h r.op)

theorem Step.not_running (hs : Step κ κ') (hn : ∀ d, κ.next ≤ d → κ.calls d = none) {c : Cid} (hc : κ.calls c ≠ none)
    (h : ∀ op, ¬ κ.Running c op) (op : Op α β) : ¬ κ'.Running c op := by
  intro hr
  rcases hs.running hn hr with h1 | h1
  · exact h op h1
  · exact hc h1

/-- From a configuration without running calls on. -/
theorem Cfg.Leads.lost {m : Mem α} {l : List α} (hm : InitMem m l) (h : Reach m κ) (hi : κ.Idle)
    (hN : ∃ r ∈ κ.mem.res, κ.mem.alloc < r.val) (hl : κ.Leads κ') (ho : ∀ c op, κ'.Called c op → Allowed D op) :
    ∃ K K0 c, WInv D m.maxCap l.length κ' K K0 ∧ PInv l.length κ' K ∧ Stuck κ' K c κ.mem.alloc ∧ (∀ op, ¬ κ'.Running c op) ∧
      ∀ d, κ.calls d = none → Behind K d κ.mem.alloc := by
  obtain ⟨r, hr, hN⟩ := hN
  induction hl with
  | refl =>
    obtain ⟨K, K0, hW, hP⟩ := pinv hm h ho
    obtain ⟨c, hc⟩ := stuck_of hW hP (settled_idle hm h ho hi).1 hN ⟨r, hr, rfl⟩
    exact ⟨K, K0, c, hW, hP, hc, hi c, fun d hd => behind_new hP hd⟩
  | @step κ1 κ2 hl hs ih =>
    have hR := Leads.reach h hl
    obtain ⟨K, K0, c, hW, hP, hS, hc, hB⟩ := ih fun c op hc => ho c op (hs.called hR.new hc)
    obtain ⟨K', K0', h1, h2, h3⟩ := PInv.step hW hP hs ho (Reach.exceeds (.step hR hs) hm ho)
    have hc' := hs.not_running hR.new (fun hn => (hP.idle c hn _).1 hS.own) hc
    exact ⟨K', K0', c, h1, h2, hS.step hW h1 h2 h3 hs (.inr hc'), hc', fun d hd => (hB d hd).step hW h3 hS⟩

section

variable {m : Mem α} {l : List α} {κ : Nat → Cfg α β}

/-- At moment `s` only call `c` is running. It does not get any further. -/
theorem InfExec.frozen (hm : InitMem m l) (h : InfExec m κ) (ho : ∀ t c op, (κ t).Called c op → Allowed D op) {s : Nat} {c : Cid}
    (hc : ∀ c' op, (κ s).Running c' op → c' = c) (hcap : lastVal (κ s).mem.cap = (κ s).mem.alloc)
    (hN : ∃ r ∈ (κ s).mem.res, (κ s).mem.alloc < r.val) {d : Cid} (hd : (κ s).calls d = none) {op : Op α β} {sz : Nat}
    (hsz : op.size = some sz) (hpos : 0 < sz) (hw : ∀ t, s ≤ t → ¬ (κ t).Over d op → (κ (t + 1)).calls c = (κ t).calls c) {t : Nat}
    {x : Ret α β} (ht : s ≤ t) : ¬ (κ t).Returned d op x := by
  obtain ⟨r, hr, hN⟩ := hN
  obtain ⟨K, K0, -, hgh⟩ := h.ghost hm ho fun t => (h.reach t).exceeds hm (ho t)
  have hW := fun t => (hgh t).1
  have hP := fun t => (hgh t).2.1
  have hl := fun t => (hgh t).2.2
  obtain ⟨o, hS⟩ := stuck_of (hW s) (hP s) hcap hN ⟨r, hr, rfl⟩
  have ho' : (κ s).calls o ≠ none := fun hn => ((hP s).idle o hn _).1 hS.own
  have main : ∀ t, s ≤ t → (∃ u, s ≤ u ∧ u ≤ t ∧ (κ u).Over d op ∧ ∀ x, ¬ (κ u).Returned d op x) ∨
      (Stuck (κ t) (K t) o (κ s).mem.alloc ∧ Behind (K t) d (κ s).mem.alloc ∧ (o = c ∨ ∀ op, ¬ (κ t).Running o op)) := by
    intro t ht
    induction ht with
    | refl =>
      refine .inr ⟨hS, behind_new (hP s) hd, ?_⟩
      by_cases hoc : o = c
      · exact .inl hoc
      · exact .inr fun op' hr' => hoc (hc o op' hr')
    | @step t ht ih =>
      rcases ih with ⟨u, h1, h2, h3⟩ | ⟨hS, hB, hro⟩
      · exact .inl ⟨u, h1, Nat.le_succ_of_le h2, h3⟩
      · by_cases hov : (κ t).Over d op
        · exact .inl ⟨t, ht, Nat.le_succ t, hov, fun x => hS.no_return (hW t) hB hsz hpos⟩
        · refine .inr ?_
          rcases h.next t with he | he
          · have hK : ∀ d, K (t + 1) d = K t d := fun d => (hl t).own d (by rw [he])
            refine ⟨?_, ?_, ?_⟩
            · exact ⟨by rw [he]; exact hS.cap, by rw [he]; exact hS.alloc, by rw [hK]; exact hS.own⟩
            · intro i hi; rw [hK] at hi; exact hB i hi
            · rw [he]; exact hro
          · have hne : (κ t).calls o ≠ none := fun hn => ((hP t).idle o hn _).1 hS.own
            have hro' : o = c ∨ ∀ op, ¬ (κ (t + 1)).Running o op := hro.imp id fun h1 => he.not_running (h.reach t).new hne h1
            refine ⟨hS.step (hW t) (hW (t + 1)) (hP (t + 1)) (hl t) he ?_, hB.step (hW t) (hl t) hS, hro'⟩
            rcases hro' with rfl | h1
            · exact .inl (hw t ht hov)
            · exact .inr h1
  rcases main t ht with ⟨u, h1, h2, h3, h4⟩ | ⟨hS, hB, -⟩
  · intro hret
    rcases h3 with ⟨y, hy⟩ | ⟨k, hk⟩
    · exact h4 y hy
    · obtain ⟨r1, g1, -, g2⟩ := h.panicked h2 hk
      obtain ⟨r2, g3, -, g4⟩ := hret
      rw [g1] at g3; cases g3
      rw [g2] at g4; cases g4
  · exact hS.no_return (hW t) hB hsz hpos

end

end Verif.Weak
