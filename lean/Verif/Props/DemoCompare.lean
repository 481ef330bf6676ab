import Verif.Props.Demo
import Verif.Spec.Compare

/-!
# Concrete executions of systems of vectors

A scheduler for systems (`Model/Compare.lean`), for the examples and counterexamples of C55 and C56.
-/

namespace Verif

variable {α β : Type}

/-- A scheduling decision. -/
inductive SysChoice (α β : Type) where
  /-- vector `u` is used by others -/
  | vec (u : Nat) (ch : Choice α β)
  /-- thread `k` begins a comparison -/
  | start (k u v : Nat) (p q : Arg) (veq : α → α → Option Bool)
  /-- the comparison of thread `k` makes a step -/
  | go (k : Nat)

namespace Sys

/-- No comparison of the threads below `N` uses call `c` of vector `u`. -/
def foreign (N : Nat) (S : Sys α β) (u : Nat) (c : Cid) : Bool :=
  (List.range N).all fun k =>
    match S.cmp k with
    | none => true
    | some T => (T.u != u || T.cid .left != c) && (T.v != u || T.cid .right != c)

/-- The call which a decision concerns. -/
def _root_.Verif.Choice.uses (κ : Cfg α β) : Choice α β → Cid
  | .call _ => κ.next
  | .go c => c

/-- Perform one scheduling decision, if it is possible; only the threads below `N` compare. -/
def perform (N : Nat) (S : Sys α β) : SysChoice α β → Option (Sys α β)
  | .vec u ch =>
      if S.foreign N u (ch.uses (S.vec u)) then
        match (S.vec u).perform ch with
        | none => none
        | some κ' => some { S with vec := upd S.vec u κ' }
      else none
  | .start k u v p q veq =>
      match S.cmp k with
      | some _ => none
      | none =>
        if decide (k < N) && p.needs.all (S.vec u).revealedB && q.needs.all (S.vec v).revealedB then
          some { S with cmp := upd S.cmp k (some ⟨u, v, p, q, veq, .compare veq p q, fun _ => []⟩) }
        else none
  | .go k =>
      match S.cmp k with
      | none => none
      | some T =>
        match T.prog with
        | .ret _ => none
        | .panic _ => none
        | .call s op K =>
          if op.needs.all (S.vec (T.vecOf s)).revealedB && op.needsPtr.all (S.vec (T.vecOf s)).revealedPtrB then
            some {
              vec := upd S.vec (T.vecOf s) { S.vec (T.vecOf s) with
                calls := upd (S.vec (T.vecOf s)).calls (S.vec (T.vecOf s)).next
                  (some ⟨op, (S.vec (T.vecOf s)).clock, (S.vec (T.vecOf s)).w, .running op.prog⟩)
                next := (S.vec (T.vecOf s)).next + 1
                clock := (S.vec (T.vecOf s)).clock + 1 }
              cmp := upd S.cmp k (some (T.opened s (S.vec (T.vecOf s)).next K)) }
          else none
        | .step s K =>
          match (S.vec (T.vecOf s)).calls (T.cid s) with
          | none => none
          | some r =>
            match r.status with
            | .running (.step a again g) =>
              match (S.vec (T.vecOf s)).w.exec (T.cid s) a with
              | none => none
              | some (w', b) => some {
                  vec := upd S.vec (T.vecOf s) { S.vec (T.vecOf s) with
                    w := w'
                    calls := (S.vec (T.vecOf s)).setStatus (T.cid s) r (.running (if again b then .step a again g else g b))
                    clock := (S.vec (T.vecOf s)).clock + 1 }
                  cmp := upd S.cmp k (some { T with prog := if again b then .step s K else K }) }
            | _ => none
        | .fin s K =>
          match (S.vec (T.vecOf s)).calls (T.cid s) with
          | none => none
          | some r =>
            match r.status with
            | .running (.step a again g) =>
              match (S.vec (T.vecOf s)).w.exec (T.cid s) a with
              | none => none
              | some (w', b) => some { S with
                  vec := upd S.vec (T.vecOf s) { S.vec (T.vecOf s) with
                    w := w'
                    calls := (S.vec (T.vecOf s)).setStatus (T.cid s) r (.running (if again b then .step a again g else g b))
                    clock := (S.vec (T.vecOf s)).clock + 1 } }
            | .running (.ret x) => some {
                vec := upd S.vec (T.vecOf s) { S.vec (T.vecOf s) with
                  calls := (S.vec (T.vecOf s)).setStatus (T.cid s) r
                    (.done x (S.vec (T.vecOf s)).clock (S.vec (T.vecOf s)).w)
                  clock := (S.vec (T.vecOf s)).clock + 1 }
                cmp := upd S.cmp k (some { T with prog := K x }) }
            | _ => none

theorem foreign_of {N : Nat} {S : Sys α β} (hN : ∀ k, N ≤ k → S.cmp k = none) {u : Nat} {c : Cid} (h : S.foreign N u c = true)
    {k : Nat} {T : Cmp α β} {s : Side} (hk : S.cmp k = some T) (hu : T.vecOf s = u) : T.cid s ≠ c := by
  have hlt : k < N := by
    rcases Nat.lt_or_ge k N with h | h
    · exact h
    · rw [hN k h] at hk; cases hk
  have := List.all_eq_true.1 h k (List.mem_range.2 hlt)
  simp only [hk, Bool.and_eq_true, Bool.or_eq_true, bne_iff_ne] at this
  cases s with
  | left => exact this.1.resolve_left (fun hh => hh hu)
  | right => exact this.2.resolve_left (fun hh => hh hu)

theorem perform_step {N : Nat} {S S' : Sys α β} (hN : ∀ k, N ≤ k → S.cmp k = none) {ch : SysChoice α β}
    (h : S.perform N ch = some S') : SysStep S S' ∧ ∀ k, N ≤ k → S'.cmp k = none := by
  have hset : ∀ {k T T'}, S.cmp k = some T → ∀ k', N ≤ k' → upd S.cmp k (some T') k' = none := by
    intro k T T' hk k' hk'
    have hne : k' ≠ k := by
      rintro rfl
      rw [hN _ hk'] at hk; cases hk
    rw [upd_other _ _ hne]
    exact hN _ hk'
  cases ch with
  | vec u ch =>
    simp only [perform] at h
    split at h
    · rename_i hf
      split at h
      · cases h
      · rename_i κ' hp
        cases h
        refine ⟨.vec S u κ' (Cfg.perform_step hp) fun k T s hk hu => ?_, hN⟩
        have hne := foreign_of hN hf hk hu
        cases ch with
        | call op =>
          simp only [Cfg.perform] at hp
          split at hp
          · cases hp
            exact upd_other _ _ hne
          · cases hp
        | go c =>
          have key : ∀ {r s'}, (S.vec u).setStatus c r s' (T.cid s) = (S.vec u).calls (T.cid s) := fun {r s'} => by
            simp only [Cfg.setStatus]; exact upd_other _ _ hne
          simp only [Cfg.perform] at hp
          split at hp
          · cases hp
          · split at hp
            · cases hp
            · cases hp
            · cases hp; exact key
            · cases hp; exact key
            · split at hp
              · cases hp
              · cases hp; exact key
    · cases h
  | start k u v p q veq =>
    simp only [perform] at h
    split at h
    · cases h
    · rename_i hk
      split at h
      · rename_i hc
        simp only [Bool.and_eq_true, decide_eq_true_eq, List.all_eq_true] at hc
        cases h
        refine ⟨.start S k u v p q veq hk (fun i hi => Cfg.revealed_of _ (hc.1.2 i hi)) (fun i hi => Cfg.revealed_of _ (hc.2 i hi)),
          fun k' hk' => ?_⟩
        have hne : k' ≠ k := by
          rintro rfl
          have := hc.1.1
          omega
        show upd S.cmp k _ k' = none
        rw [upd_other _ _ hne]
        exact hN _ hk'
      · cases h
  | go k =>
    simp only [perform] at h
    split at h
    · cases h
    rename_i T hk
    split at h
    · cases h
    · cases h
    · rename_i s op K ht
      split at h
      · rename_i hc
        simp only [Bool.and_eq_true, List.all_eq_true] at hc
        cases h
        exact ⟨.call S k T s op K _ hk ht rfl (fun i hi => Cfg.revealed_of _ (hc.1 i hi))
          (fun i hi => Cfg.revealedPtr_of _ (hc.2 i hi)), hset hk⟩
      · cases h
    · rename_i s K ht
      split at h
      · cases h
      rename_i r hc
      split at h
      · rename_i a again g hr
        split at h
        · cases h
        · rename_i w' b he
          cases h
          exact ⟨.step S k T s K _ r a again g w' b hk ht rfl hc hr he, hset hk⟩
      · cases h
    · rename_i s K ht
      split at h
      · cases h
      rename_i r hc
      split at h
      · rename_i a again g hr
        split at h
        · cases h
        · rename_i w' b he
          cases h
          exact ⟨.finStep S k T s K _ r a again g w' b hk ht rfl hc hr he, hN⟩
      · rename_i x hr
        cases h
        exact ⟨.finRet S k T s K _ r x hk ht rfl hc hr, hset hk⟩
      · cases h

/-- Perform a list of scheduling decisions. -/
def run (N : Nat) (S : Sys α β) : List (SysChoice α β) → Option (Sys α β)
  | [] => some S
  | ch :: chs =>
    match S.perform N ch with
    | none => none
    | some S' => S'.run N chs

theorem run_append (N : Nat) (S : Sys α β) (as bs : List (SysChoice α β)) :
    S.run N (as ++ bs) = (S.run N as).bind (fun S' => S'.run N bs) := by
  induction as generalizing S with
  | nil => rfl
  | cons a as ih =>
    simp only [List.cons_append, run]
    split
    · rfl
    · exact ih _

theorem run_none {N : Nat} {S S' : Sys α β} (hN : ∀ k, N ≤ k → S.cmp k = none) {chs : List (SysChoice α β)}
    (h : S.run N chs = some S') : ∀ k, N ≤ k → S'.cmp k = none := by
  induction chs generalizing S with
  | nil => cases h; exact hN
  | cons ch chs ih =>
    simp only [run] at h
    split at h
    · cases h
    · rename_i S1 hp
      exact ih (perform_step hN hp).2 h

end Sys

namespace Demo

/-- Vectors 0 and 1 hold `l 0` and `l 1` (and all others hold nothing). -/
def mems (l : Nat → List Nat) (u : Nat) : Mem Nat := mem (l u) (l u).length 8

/-- What a list of scheduling decisions leads to; the initial system if the schedule is impossible. -/
def sysAfter (l : Nat → List Nat) (chs : List (SysChoice Nat Nat)) : Sys Nat Nat :=
  ((Sys.init (mems l) l).run 3 chs).getD (Sys.init (mems l) l)

/-- The schedule is possible. -/
def SysPossible (l : Nat → List Nat) (chs : List (SysChoice Nat Nat)) : Prop :=
  ((Sys.init (mems l) l : Sys Nat Nat).run 3 chs).isSome = true

theorem mems_init {l : Nat → List Nat} (h : ∀ u, (l u).length ≤ 8) (u : Nat) : InitMem (mems l u) (l u) :=
  mem_init _ _ _ (Nat.le_refl _) (h u)

theorem sysExec {l : Nat → List Nat} {chs : List (SysChoice Nat Nat)} (h : SysPossible l chs) :
    SysExec (mems l) l chs.length (fun t => sysAfter l (chs.take t)) := by
  unfold SysPossible at h
  have hf : ∀ t, t ≤ chs.length → (Sys.init (mems l) l : Sys Nat Nat).run 3 (chs.take t) = some (sysAfter l (chs.take t)) := by
    intro t ht
    have hp : ((Sys.init (mems l) l : Sys Nat Nat).run 3 (chs.take t)).isSome := by
      have := h
      rw [← List.take_append_drop t chs, Sys.run_append] at this
      rcases hh : (Sys.init (mems l) l : Sys Nat Nat).run 3 (chs.take t) with _ | S
      · rw [hh] at this; cases this
      · rfl
    unfold sysAfter
    rcases hh : (Sys.init (mems l) l : Sys Nat Nat).run 3 (chs.take t) with _ | S
    · rw [hh] at hp; cases hp
    · rfl
  refine ⟨by simp [sysAfter, Sys.run], fun t ht => ?_⟩
  have h1 := hf t (by omega)
  have h2 := hf (t + 1) (by omega)
  have h3 : chs.take (t + 1) = chs.take t ++ [chs[t]] := by simp
  rw [h3, Sys.run_append, h1] at h2
  simp only [Option.bind_some, Sys.run] at h2
  split at h2
  · cases h2
  · rename_i S' hp
    have := (Sys.perform_step (Sys.run_none (fun k _ => rfl) h1) hp).1
    simp only [Option.some.injEq] at h2
    rw [← h3] at h2
    rw [h2] at this
    exact this

/-- `k` steps of thread `i`. -/
def sgo (i k : Nat) : List (SysChoice Nat Nat) := List.replicate k (.go i)

end Demo

end Verif
