import Verif.Props.DemoCompare
import Verif.Proof.CompareFair

/-!
# Concrete infinite executions of systems of vectors

For the example beside `C56_all_end_partial`: a finite schedule after which all comparisons and calls are over, followed by
`reserve_maximum_capacity(0)` on some other vector forever (which changes nothing).
-/

namespace Verif

variable {α β : Type}

/-- Work on what has been begun. -/
def SysChoice.old : SysChoice α β → Bool
  | .vec _ (.go _) => true
  | .go _ => true
  | _ => false

namespace Sys

theorem perform_works {N : Nat} {S S' : Sys α β} (hN : ∀ k, N ≤ k → S.cmp k = none) {ch : SysChoice α β}
    (h : S.perform N ch = some S') (ho : ch.old = true) : S.Works S' := by
  have hst := (perform_step hN h).1
  have hset : ∀ {k T T'}, S.cmp k = some T → ∀ k', S.cmp k' = none → upd S.cmp k (some T') k' = none := by
    intro k T T' hk k' hk'
    have hne : k' ≠ k := by
      rintro rfl
      rw [hk'] at hk; cases hk
    rw [upd_other _ _ hne]
    exact hk'
  -- no new call
  have hno : ∀ {u c r s' κ'}, (S.vec u).calls c = some r → κ'.calls = (S.vec u).setStatus c r s' → ∀ {cm : Nat → Option (Cmp α β)},
      ∀ u' c', (S.vec u').calls c' = none → (upd S.vec u κ' u').calls c' ≠ none → ¬ Sys.Foreign ⟨upd S.vec u κ', cm⟩ u' c' := by
    intro u c r s' κ' hc hκ cm u' c' h1 h2
    exfalso
    refine h2 ?_
    by_cases hu : u' = u
    · subst hu
      have hne : c' ≠ c := by rintro rfl; rw [h1] at hc; cases hc
      rw [upd_same, hκ]
      simp only [Cfg.setStatus]
      rw [upd_other _ _ hne]
      exact h1
    · rw [upd_other _ _ hu]; exact h1
  refine ⟨hst, ?_⟩
  clear hst
  cases ch with
  | vec u ch =>
    cases ch with
    | call op => cases ho
    | go c =>
      simp only [perform] at h
      split at h
      · split at h
        · cases h
        · rename_i κ' hp
          cases h
          refine ⟨fun k hk => hk, ?_⟩
          simp only [Cfg.perform] at hp
          split at hp
          · cases hp
          · rename_i r hc
            split at hp
            · cases hp
            · cases hp
            · cases hp; exact hno hc rfl
            · cases hp; exact hno hc rfl
            · split at hp
              · cases hp
              · cases hp; exact hno hc rfl
      · cases h
  | start k u v p q veq => cases ho
  | go k =>
    simp only [perform] at h
    split at h
    · cases h
    rename_i T hk
    split at h
    · cases h
    · cases h
    · rename_i s op K ht
      split at h
      · cases h
        refine ⟨hset hk, fun u c h1 h2 hf => ?_⟩
        by_cases hu : u = T.vecOf s
        · subst hu
          simp only [upd_same] at h2
          by_cases hc : c = (S.vec (T.vecOf s)).next
          · subst hc
            refine hf k _ s (upd_same _ _ _) ?_ ?_
            · cases s <;> rfl
            · simp [Cmp.cid, Cmp.opened]
          · rw [upd_other _ _ hc] at h2
            exact h2 h1
        · simp only [upd_other _ _ hu] at h2
          exact h2 h1
      · cases h
    · rename_i s K ht
      split at h
      · cases h
      rename_i r hc
      split at h
      · split at h
        · cases h
        · cases h
          exact ⟨hset hk, hno hc rfl⟩
      · cases h
    · rename_i s K ht
      split at h
      · cases h
      rename_i r hc
      split at h
      · split at h
        · cases h
        · cases h
          exact ⟨fun k hk => hk, hno hc rfl⟩
      · cases h
        exact ⟨hset hk, hno hc rfl⟩
      · cases h

end Sys

namespace Demo

variable {l : Nat → List Nat} {chs : List (SysChoice Nat Nat)}

/-- The schedule, then nothing of interest forever. -/
def sysForever (l : Nat → List Nat) (chs : List (SysChoice Nat Nat)) (t : Nat) : Sys Nat Nat :=
  let S := sysAfter l (chs.take t)
  { S with vec := upd S.vec 5 { S.vec 5 with clock := (S.vec 5).clock + (t - chs.length) } }

theorem sysForever_le {t : Nat} (h : t ≤ chs.length) : sysForever l chs t = sysAfter l (chs.take t) := by
  unfold sysForever
  rw [Nat.sub_eq_zero_of_le h]
  generalize sysAfter l (chs.take t) = S
  obtain ⟨v, c⟩ := S
  simp only [Nat.add_zero, Sys.mk.injEq, and_true]
  funext u
  by_cases hu : u = 5
  · subst hu; rw [upd_same]
  · rw [upd_other _ _ hu]

theorem sysForever_works (h : SysPossible l chs) {N : Nat} (ho : (chs.drop N).all SysChoice.old = true)
    (hi : ((sysAfter l chs).vec 5).Idle) (hp : ((sysAfter l chs).vec 5).w.mem.pol = exact) :
    InfSysExec (mems l) l (sysForever l chs) ∧ ∀ t, N ≤ t → (sysForever l chs t).Works (sysForever l chs (t + 1)) := by
  have he := sysExec h
  -- after the schedule
  have hge : ∀ t, chs.length ≤ t → (sysForever l chs t).Works (sysForever l chs (t + 1)) := by
    intro t ht
    unfold sysForever
    rw [List.take_of_length_le ht, List.take_of_length_le (by omega)]
    generalize sysAfter l chs = S at *
    obtain ⟨v, c⟩ := S
    simp only at hi hp ⊢
    have hs := Step.reserveMax { v 5 with clock := (v 5).clock + (t - chs.length) } 0 hi
    simp only at hs
    have h1 : (v 5).w.mem.pol.reserve (v 5).w.mem.maxCap 0 = (v 5).w.mem.maxCap := by rw [hp]; simp [exact]
    rw [Mem.reserveMax, h1, show (v 5).clock + (t - chs.length) + 1 = (v 5).clock + (t + 1 - chs.length) by omega] at hs
    refine ⟨?_, fun k hk => hk, fun u c' g1 g2 => ?_⟩
    · have := SysStep.vec ⟨upd v 5 { v 5 with clock := (v 5).clock + (t - chs.length) }, c⟩ 5
        { v 5 with clock := (v 5).clock + (t + 1 - chs.length) } (by simp only [upd_same]; exact hs) (by
          intro k T s _ _
          simp only [upd_same])
      simp only at this
      have h2 : upd (upd v 5 { v 5 with clock := (v 5).clock + (t - chs.length) }) 5
          { v 5 with clock := (v 5).clock + (t + 1 - chs.length) } = upd v 5 { v 5 with clock := (v 5).clock + (t + 1 - chs.length) } := by
        funext u
        by_cases hu : u = 5
        · subst hu; rw [upd_same, upd_same]
        · rw [upd_other _ _ hu, upd_other _ _ hu, upd_other _ _ hu]
      rw [h2] at this
      exact this
    · exfalso
      by_cases hu : u = 5
      · subst hu
        simp only [upd_same] at g1 g2
        exact g2 g1
      · simp only [upd_other _ _ hu] at g1 g2
        exact g2 g1
  refine ⟨⟨by rw [sysForever_le (Nat.zero_le _)]; exact he.init, fun t => ?_⟩, fun t ht => ?_⟩
  · rcases Nat.lt_or_ge t chs.length with hlt | hle
    · rw [sysForever_le (by omega), sysForever_le (by omega)]
      exact he.next t hlt
    · exact (hge t hle).1
  · rcases Nat.lt_or_ge t chs.length with hlt | hle
    · rw [sysForever_le (by omega), sysForever_le (by omega)]
      obtain ⟨S, hS⟩ := Option.isSome_iff_exists.1 h
      have hsplit : ∀ t, t ≤ chs.length → (Sys.init (mems l) l : Sys Nat Nat).run 3 (chs.take t) = some (sysAfter l (chs.take t)) := by
        intro t ht
        have := hS
        rw [← List.take_append_drop t chs, Sys.run_append] at this
        unfold sysAfter
        rcases hh : (Sys.init (mems l) l : Sys Nat Nat).run 3 (chs.take t) with _ | S
        · rw [hh] at this; cases this
        · rfl
      have h1 := hsplit t (by omega)
      have h2 := hsplit (t + 1) (by omega)
      have h3 : chs.take (t + 1) = chs.take t ++ [chs[t]] := by simp
      rw [h3, Sys.run_append, h1] at h2
      simp only [Option.bind_some, Sys.run] at h2
      split at h2
      · cases h2
      · rename_i S' hp'
        have := Sys.perform_works (Sys.run_none (fun k _ => rfl) h1) hp' (by
          refine List.all_eq_true.1 ho _ ?_
          rw [List.mem_drop_iff_getElem]
          exact ⟨t - N, by omega, by simp [show N + (t - N) = t by omega]⟩)
        simp only [Option.some.injEq] at h2
        rw [← h3] at h2
        rw [h2] at this
        exact this
    · exact hge t hle

theorem sysForever_idle (hi : (sysAfter l chs).Idle) {t : Nat} (ht : chs.length ≤ t) : (sysForever l chs t).Idle := by
  unfold sysForever
  rw [List.take_of_length_le ht]
  refine ⟨hi.1, fun u => ?_⟩
  by_cases hu : u = 5
  · subst hu; simp only [upd_same]; exact hi.2 5
  · simp only [upd_other _ _ hu]; exact hi.2 u

/-- If everything ends, scheduling is fair. -/
theorem sysFair_of_idle {S : Nat → Sys Nat Nat} {T : Nat} (h : ∀ t, T ≤ t → (S t).Idle) : SysFair S where
  cmp k t ht := ((h (max t T) (by omega)).1 k (ht (max t T) (by omega)).1).elim
  call u c t ht := by
    obtain ⟨⟨op, ct, st, p, hc⟩, -⟩ := ht (max t T) (by omega)
    exact ((h (max t T) (by omega)).2 u c op ct st p hc).elim

theorem sysStronglyFair_of_idle {S : Nat → Sys Nat Nat} {T : Nat} (h : ∀ t, T ≤ t → (S t).Idle) : SysStronglyFair S where
  cmp k ht := by
    obtain ⟨t', h1, h2, -⟩ := ht T
    exact ((h t' h1).1 k h2).elim
  call u c ht := by
    obtain ⟨t', h1, ⟨op, ct, st, p, hc⟩, -⟩ := ht T
    exact ((h t' h1).2 u c op ct st p hc).elim

/-- If no call has panicked at the end, then storage can grow throughout. -/
theorem sysForever_intact {m : Nat → Mem Nat} {S : Nat → Sys Nat Nat} (h : InfSysExec m l S) (hm : ∀ u, InitMem (m u) (l u))
    {T : Nat} (hT : ∀ t, T ≤ t → ∀ u c op k, ¬ ((S t).vec u).Panicked c op k) (t u : Nat) : ((S t).vec u).GrowthIntact := by
  have mono : ∀ d c op k, ((S t).vec u).Panicked c op k → ((S (t + d)).vec u).Panicked c op k := by
    intro d
    induction d with
    | zero => exact fun _ _ _ h => h
    | succ d ih =>
      intro c op k hp
      have ih := ih c op k hp
      obtain ⟨ct, st, et, fin, hc⟩ := ih
      rcases (h.exec (t + d + 1)).vecStep hm (t := t + d) (by omega) u with he | hs
      · exact ⟨ct, st, et, fin, by rw [show t + (d + 1) = t + d + 1 from rfl, he]; exact hc⟩
      · have hO := ((h.exec (t + d)).ok hm (Nat.le_refl _)).toSysInv
        obtain ⟨r', h1, h2⟩ := ((hO.reach u).inv (hm u)).step_rec hs hc
        rw [h2.ended _ rfl] at h1
        exact ⟨ct, st, et, fin, h1⟩
  rintro c op k mm ⟨ct, st, et, fin, hc⟩ -
  exact (hT (t + T) (by omega) u c op k (mono T c op k ⟨ct, st, et, _, hc⟩)).elim

end Demo

end Verif
