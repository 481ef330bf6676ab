import Verif.Props.DemoWeak
import Verif.Props.DemoCompare
import Verif.Weak.CompareInv

/-!
# Concrete weak-memory executions of systems of vectors

A scheduler for systems (`Weak/Compare.lean`), for the examples and counterexamples of C60.
-/

namespace Verif.Weak

variable {α β : Type}

/-- A scheduling decision (not in the source: scheduling). -/
inductive SysChoice (α β : Type) where
  /-- vector `u` is used by others -/
  | vec (u : Nat) (ch : Choice α β)
  /-- thread `k` begins a comparison, after the calls in `H` -/
  | start (k u v : Nat) (p q : Arg) (veq : α → α → Option Bool) (H : Side → List Cid)
  /-- the comparison of thread `k` makes a step, with the newest message -/
  | go (k : Nat)
  /-- the comparison of thread `k` makes a step, with message `t` -/
  | at (k t : Nat)

namespace Sys

/-- No comparison of the threads below `N` uses call `c` of vector `u` (not in the source). -/
def foreign (N : Nat) (S : Sys α β) (u : Nat) (c : Cid) : Bool :=
  (List.range N).all fun k =>
    match S.cmp k with
    | none => true
    | some T => (T.u != u || T.cid .left != c) && (T.v != u || T.cid .right != c)

/-- The call which a decision concerns (not in the source). -/
def _root_.Verif.Weak.Choice.uses (κ : Cfg α β) : Choice α β → Cid
  | .call _ _ => κ.next
  | .go c => c
  | .at c _ => c
  | .raise _ => 0

/-- The next step of the comparison of thread `k`, with message `t` or the newest one (not in the source). -/
def goes (S : Sys α β) (k : Nat) (t : Option Nat) : Option (Sys α β) :=
  match S.cmp k with
  | none => none
  | some T =>
    match T.prog with
    | .ret _ => none
    | .panic _ => none
    | .call s op K =>
      match (S.vec (T.vecOf s)).join (T.hb s ++ T.own s) with
      | none => none
      | some V =>
        if (op.needs.all ((S.vec (T.vecOf s)).revealedB (T.hb s ++ T.own s)) &&
            op.needsPtr.all ((S.vec (T.vecOf s)).revealedPtrB (T.hb s ++ T.own s))) = true then
          some {
            vec := upd S.vec (T.vecOf s) { S.vec (T.vecOf s) with
              calls := upd (S.vec (T.vecOf s)).calls (S.vec (T.vecOf s)).next
                (some ⟨op, T.hb s ++ T.own s, V, V, .running op.prog⟩)
              next := (S.vec (T.vecOf s)).next + 1 }
            cmp := upd S.cmp k (some (T.opened s (S.vec (T.vecOf s)).next K)) }
        else none
    | .step s K =>
      match (S.vec (T.vecOf s)).calls (T.cid s) with
      | none => none
      | some r =>
        match r.status with
        | .running (.step a again g) =>
          match exec a (t.getD (newest (S.vec (T.vecOf s)).mem a)) r.view (S.vec (T.vecOf s)).mem with
          | .ok V w b => some {
              vec := upd S.vec (T.vecOf s) { S.vec (T.vecOf s) with
                mem := w
                calls := upd (S.vec (T.vecOf s)).calls (T.cid s) (some { r with
                  view := V
                  status := .running (if again b then .step a again g else g b) }) }
              cmp := upd S.cmp k (some (T.goesOn (if again b then .step s K else K))) }
          | _ => none
        | _ => none
    | .fin s K =>
      match (S.vec (T.vecOf s)).calls (T.cid s) with
      | none => none
      | some r =>
        match r.status with
        | .running (.step a again g) =>
          match exec a (t.getD (newest (S.vec (T.vecOf s)).mem a)) r.view (S.vec (T.vecOf s)).mem with
          | .ok V w b => some { S with
              vec := upd S.vec (T.vecOf s) { S.vec (T.vecOf s) with
                mem := w
                calls := upd (S.vec (T.vecOf s)).calls (T.cid s) (some { r with
                  view := V
                  status := .running (if again b then .step a again g else g b) }) } }
          | _ => none
        | .running (.ret x) => some {
            vec := upd S.vec (T.vecOf s) { S.vec (T.vecOf s) with
              calls := upd (S.vec (T.vecOf s)).calls (T.cid s) (some { r with status := .done x }) }
            cmp := upd S.cmp k (some (T.goesOn (K x))) }
        | _ => none

/-- Perform one scheduling decision, if it is possible; only the threads below `N` compare (not in the source). -/
def perform (N : Nat) (S : Sys α β) : SysChoice α β → Option (Sys α β)
  | .vec u ch =>
      if S.foreign N u (ch.uses (S.vec u)) then
        match (S.vec u).perform ch with
        | none => none
        | some κ' => some { S with vec := upd S.vec u κ' }
      else none
  | .start k u v p q veq H =>
      match S.cmp k, (S.vec u).join (H .left), (S.vec v).join (H .right) with
      | none, some _, some _ =>
        if decide (k < N) && p.needs.all ((S.vec u).revealedB (H .left)) && q.needs.all ((S.vec v).revealedB (H .right)) then
          some { S with cmp := upd S.cmp k (some ⟨⟨u, v, p, q, veq, .compare veq p q, fun _ => []⟩, H⟩) }
        else none
      | _, _, _ => none
  | .go k => S.goes k none
  | .at k t => S.goes k (some t)

theorem foreign_of {N : Nat} {S : Sys α β} (hN : ∀ k, N ≤ k → S.cmp k = none) {u : Nat} {c : Cid} (h : S.foreign N u c = true)
    {k : Nat} {T : Cmp α β} {s : Side} (hk : S.cmp k = some T) (hu : T.vecOf s = u) : T.cid s ≠ c := by
  have hlt : k < N := by
    rcases Nat.lt_or_ge k N with h | h
    · exact h
    · rw [hN k h] at hk; cases hk
  have := List.all_eq_true.1 h k (List.mem_range.2 hlt)
  simp only [hk, Bool.and_eq_true, Bool.or_eq_true, bne_iff_ne] at this
  cases s with
  | left => exact this.1.resolve_left (fun hh => hh hu)
  | right => exact this.2.resolve_left (fun hh => hh hu)

theorem _root_.Verif.Weak.Cfg.perform_others {κ κ' : Cfg α β} {ch : Choice α β} (h : κ.perform ch = some κ') {c : Cid}
    (hc : c ≠ ch.uses κ) : κ'.calls c = κ.calls c := by
  have go : ∀ {d t}, κ.go d t = some κ' → c ≠ d → κ'.calls c = κ.calls c := by
    intro d t h hne
    unfold Cfg.go at h
    split at h
    · cases h
    · split at h
      · cases h
      · cases h
      · cases h; exact upd_other _ _ hne
      · cases h; exact upd_other _ _ hne
      · split at h
        · cases h
        · cases h; rfl
        · cases h; exact upd_other _ _ hne
  cases ch with
  | call op H =>
    simp only [Cfg.perform] at h
    split at h
    · cases h
    · split at h
      · cases h; exact upd_other _ _ hc
      · cases h
  | go d => exact go h hc
  | «at» d t => exact go h hc
  | raise n =>
    simp only [Cfg.perform] at h
    split at h
    · cases h; rfl
    · cases h

theorem goes_step {N : Nat} {S S' : Sys α β} (hN : ∀ k, N ≤ k → S.cmp k = none) {k : Nat} {t : Option Nat}
    (h : S.goes k t = some S') : SysStep S S' ∧ ∀ k, N ≤ k → S'.cmp k = none := by
  have hset : ∀ {k T T'}, S.cmp k = some T → ∀ k', N ≤ k' → upd S.cmp k (some T') k' = none := by
    intro k T T' hk k' hk'
    have hne : k' ≠ k := by
      rintro rfl
      rw [hN _ hk'] at hk; cases hk
    rw [upd_other _ _ hne]
    exact hN _ hk'
  unfold goes at h
  split at h
  · cases h
  rename_i T hk
  split at h
  · cases h
  · cases h
  · rename_i s op K ht
    split at h
    · cases h
    rename_i V hV
    split at h
    · rename_i hc
      simp only [Bool.and_eq_true, List.all_eq_true] at hc
      cases h
      exact ⟨.call S k T s op K _ _ _ hk ht rfl (Cfg.ended_of hV) (fun c hc => hc) (fun i hi => Cfg.revealed_of (hc.1 i hi))
        (fun i hi => Cfg.revealedPtr_of (hc.2 i hi)), hset hk⟩
    · cases h
  · rename_i s K ht
    split at h
    · cases h
    rename_i r hc
    split at h
    · rename_i a again g hr
      split at h
      · rename_i V w b he
        cases h
        exact ⟨.step S k T s K _ r a again g _ V w b hk ht rfl hc hr he, hset hk⟩
      · cases h
    · cases h
  · rename_i s K ht
    split at h
    · cases h
    rename_i r hc
    split at h
    · rename_i a again g hr
      split at h
      · rename_i V w b he
        cases h
        exact ⟨.finStep S k T s K _ r a again g _ V w b hk ht rfl hc hr he, hN⟩
      · cases h
    · rename_i x hr
      cases h
      exact ⟨.finRet S k T s K _ r x hk ht rfl hc hr, hset hk⟩
    · cases h

theorem perform_step {m : Nat → Mem α} {N : Nat} {S S' : Sys α β} (hI : SysInv m S) (hN : ∀ k, N ≤ k → S.cmp k = none)
    {ch : SysChoice α β} (h : S.perform N ch = some S') : SysStep S S' ∧ ∀ k, N ≤ k → S'.cmp k = none := by
  cases ch with
  | vec u ch =>
    simp only [perform] at h
    split at h
    · rename_i hf
      split at h
      · cases h
      · rename_i κ' hp
        cases h
        exact ⟨.vec S u κ' (Cfg.perform_step (hI.reach u).new hp) fun k T s hk hu =>
          Cfg.perform_others hp (foreign_of hN hf hk hu), hN⟩
    · cases h
  | start k u v p q veq H =>
    simp only [perform] at h
    split at h
    · rename_i V V' hk hl hr
      split at h
      · rename_i hc
        simp only [Bool.and_eq_true, decide_eq_true_eq, List.all_eq_true] at hc
        cases h
        refine ⟨.start S k u v p q veq H _ _ hk (Cfg.ended_of hl) (Cfg.ended_of hr) (fun i hi => Cfg.revealed_of (hc.1.2 i hi))
          (fun i hi => Cfg.revealed_of (hc.2 i hi)), fun k' hk' => ?_⟩
        have hne : k' ≠ k := by
          rintro rfl
          have := hc.1.1
          omega
        show upd S.cmp k _ k' = none
        rw [upd_other _ _ hne]
        exact hN _ hk'
      · cases h
    · cases h
  | go k => exact goes_step hN h
  | «at» k t => exact goes_step hN h

/-- Perform a list of scheduling decisions (not in the source). -/
def run (N : Nat) (S : Sys α β) : List (SysChoice α β) → Option (Sys α β)
  | [] => some S
  | ch :: chs =>
    match S.perform N ch with
    | none => none
    | some S' => S'.run N chs

theorem run_append (N : Nat) (S : Sys α β) (as bs : List (SysChoice α β)) :
    S.run N (as ++ bs) = (S.run N as).bind (fun S' => S'.run N bs) := by
  induction as generalizing S with
  | nil => rfl
  | cons a as ih =>
    simp only [List.cons_append, run]
    split
    · rfl
    · exact ih _

theorem run_inv {m : Nat → Mem α} {N : Nat} {S S' : Sys α β} (hI : SysInv m S) (hN : ∀ k, N ≤ k → S.cmp k = none)
    {chs : List (SysChoice α β)} (h : S.run N chs = some S') : SysInv m S' ∧ ∀ k, N ≤ k → S'.cmp k = none := by
  induction chs generalizing S with
  | nil => cases h; exact ⟨hI, hN⟩
  | cons ch chs ih =>
    simp only [run] at h
    split at h
    · cases h
    · rename_i S1 hp
      have := perform_step hI hN hp
      exact ih (this.1.split hI).2 this.2 h

end Sys

namespace Show

open Verif.Demo (mems mems_init)

/-- What a list of scheduling decisions leads to; the initial system if the schedule is impossible. -/
def sysAfter (l : Nat → List Nat) (chs : List (SysChoice Nat Nat)) : Sys Nat Nat :=
  ((Sys.init (mems l)).run 3 chs).getD (Sys.init (mems l))

/-- The schedule is possible. -/
def SysPossible (l : Nat → List Nat) (chs : List (SysChoice Nat Nat)) : Prop :=
  ((Sys.init (mems l) : Sys Nat Nat).run 3 chs).isSome = true

theorem sysExec {l : Nat → List Nat} {chs : List (SysChoice Nat Nat)} (h : SysPossible l chs) :
    SysExec (mems l) chs.length (fun t => sysAfter l (chs.take t)) := by
  unfold SysPossible at h
  have hf : ∀ t, t ≤ chs.length → (Sys.init (mems l) : Sys Nat Nat).run 3 (chs.take t) = some (sysAfter l (chs.take t)) := by
    intro t ht
    have hp : ((Sys.init (mems l) : Sys Nat Nat).run 3 (chs.take t)).isSome := by
      have := h
      rw [← List.take_append_drop t chs, Sys.run_append] at this
      rcases hh : (Sys.init (mems l) : Sys Nat Nat).run 3 (chs.take t) with _ | S
      · rw [hh] at this; cases this
      · rfl
    unfold sysAfter
    rcases hh : (Sys.init (mems l) : Sys Nat Nat).run 3 (chs.take t) with _ | S
    · rw [hh] at hp; cases hp
    · rfl
  have hI0 : SysInv (mems l) (Sys.init (mems l) : Sys Nat Nat) :=
    SysExec.inv (n := 0) (S := fun _ => Sys.init (mems l)) ⟨rfl, fun t ht => by omega⟩ (Nat.le_refl 0)
  refine ⟨by simp [sysAfter, Sys.run], fun t ht => ?_⟩
  have h1 := hf t (by omega)
  have h2 := hf (t + 1) (by omega)
  have h3 : chs.take (t + 1) = chs.take t ++ [chs[t]] := by simp
  rw [h3, Sys.run_append, h1] at h2
  simp only [Option.bind_some, Sys.run] at h2
  split at h2
  · cases h2
  · rename_i S' hp
    have hr := Sys.run_inv hI0 (fun k _ => rfl) h1
    have := (Sys.perform_step hr.1 hr.2 hp).1
    simp only [Option.some.injEq] at h2
    rw [← h3] at h2
    rw [h2] at this
    exact this

/-- `k` steps of thread `i`. -/
def sgo (i k : Nat) : List (SysChoice Nat Nat) := List.replicate k (.go i)

end Show

end Verif.Weak
