import Verif.Props.DemoWeak
import Verif.Weak.Progress

/-!
# Concrete infinite weak-memory executions

For the examples beside the progress theorems: a finite list of decisions, after which nothing happens any more.
-/

namespace Verif.Weak

theorem Cfg.run_snoc {α β : Type} {κ : Cfg α β} {chs : List (Choice α β)} {ch : Choice α β} :
    κ.run (chs ++ [ch]) = (κ.run chs).bind fun κ' => κ'.perform ch := by
  induction chs generalizing κ with
  | nil =>
    simp only [List.nil_append, Cfg.run, Option.bind_some]
    split <;> simp_all
  | cons c chs ih =>
    simp only [List.cons_append, Cfg.run]
    rcases κ.perform c with _ | κ1
    · rfl
    · exact ih

theorem Cfg.go_moves {α β : Type} {κ κ' : Cfg α β} {c : Cid} {t : Option Nat} (h : κ.go c t = some κ') (hb : κ'.bad = none) :
    κ.Moves c κ' := by
  unfold Cfg.go at h
  split at h
  · cases h
  · next r hc =>
    split at h
    · cases h
    · cases h
    · next x hr => injection h with h; subst h; exact ⟨r, hc, .inr (.inl ⟨x, hr, rfl⟩)⟩
    · next k hr => injection h with h; subst h; exact ⟨r, hc, .inr (.inr ⟨k, hr, rfl⟩)⟩
    · next a again k hr =>
      split at h
      · cases h
      · next x he => injection h with h; subst h; cases hb
      · next V m b he => injection h with h; subst h; exact ⟨r, hc, .inl ⟨a, again, k, _, V, m, b, hr, he, rfl⟩⟩

namespace Show

open Verif.Demo (mem mem_init)

/-- The decisions, then nothing. -/
def lasting (l : List Nat) (cap maxCap : Nat) (chs : List (Choice Nat Nat)) (t : Nat) : Cfg Nat Nat := after l cap maxCap (chs.take t)

variable {l : List Nat} {cap maxCap : Nat} {chs : List (Choice Nat Nat)}

theorem possible_snoc {ch : Choice Nat Nat} (h : Possible l cap maxCap (chs ++ [ch])) :
    Possible l cap maxCap chs ∧ (after l cap maxCap chs).perform ch = some (after l cap maxCap (chs ++ [ch])) := by
  unfold Possible after at *
  rw [Cfg.run_snoc] at *
  rcases hr : (Cfg.init (mem l cap maxCap) : Cfg Nat Nat).run chs with _ | κ
  · rw [hr] at h; cases h
  · rw [hr] at h
    simp only [Option.bind_some, Option.getD_some] at *
    rcases hp : κ.perform ch with _ | κ'
    · rw [hp] at h; cases h
    · exact ⟨rfl, rfl⟩

theorem possible_take (h : Possible l cap maxCap chs) : ∀ k, Possible l cap maxCap (chs.take (chs.length - k))
  | 0 => by rw [Nat.sub_zero, List.take_length]; exact h
  | k + 1 => by
    have ih := possible_take h k
    rcases Nat.lt_or_ge k chs.length with hk | hk
    · have : chs.take (chs.length - k) = chs.take (chs.length - (k + 1)) ++ [chs[chs.length - (k + 1)]'(by omega)] := by
        rw [show chs.length - k = chs.length - (k + 1) + 1 by omega, List.take_succ_eq_append_getElem (by omega)]
      rw [this] at ih
      exact (possible_snoc ih).1
    · rw [show chs.length - (k + 1) = chs.length - k by omega]; exact ih

theorem lasting_perform (h : Possible l cap maxCap chs) {t : Nat} (ht : t < chs.length) :
    (lasting l cap maxCap chs t).perform chs[t] = some (lasting l cap maxCap chs (t + 1)) := by
  have := possible_take h (chs.length - (t + 1))
  rw [show chs.length - (chs.length - (t + 1)) = t + 1 by omega, List.take_succ_eq_append_getElem ht] at this
  unfold lasting
  rw [List.take_succ_eq_append_getElem ht]
  exact (possible_snoc this).2

theorem lasting_end {t : Nat} (ht : chs.length ≤ t) : lasting l cap maxCap chs t = after l cap maxCap chs := by
  unfold lasting; rw [List.take_of_length_le ht]

theorem lasting_inf (h : Possible l cap maxCap chs) : InfExec (mem l cap maxCap) (lasting l cap maxCap chs) := by
  refine ⟨rfl, fun t => ?_⟩
  rcases Nat.lt_or_ge t chs.length with ht | ht
  · refine .inr (Cfg.perform_step (Reach.new (m := mem l cap maxCap) ?_) (lasting_perform h ht))
    have := possible_take h (chs.length - t)
    rw [show chs.length - (chs.length - t) = t by omega] at this
    exact reach_after this
  · rw [lasting_end ht, lasting_end (by omega)]; exact .inl rfl

theorem lasting_called (h : Possible l cap maxCap chs) {t : Nat} {c : Cid} {op : Op Nat Nat} (hc : (lasting l cap maxCap chs t).Called c op) :
    (after l cap maxCap chs).Called c op := by
  have := (lasting_inf h).called (Nat.le_max_left t chs.length) hc
  rwa [lasting_end (Nat.le_max_right _ _)] at this

theorem lasting_only (h : Possible l cap maxCap chs) {p : Op Nat Nat → Prop} (hp : (after l cap maxCap chs).Only p) (t : Nat) :
    (lasting l cap maxCap chs t).Only p := fun c op hc => hp c op (lasting_called h hc)

theorem lasting_disciplined (h : Possible l cap maxCap chs) (hd : (after l cap maxCap chs).Disciplined) (t : Nat) :
    (lasting l cap maxCap chs t).Disciplined := fun c e hc c' op hc' => hd c e (lasting_called h hc) c' op (lasting_called h hc')

theorem lasting_panicked (h : Possible l cap maxCap chs) {t : Nat} {c : Cid} {op : Op Nat Nat} {k : PanicKind}
    (hc : (lasting l cap maxCap chs t).Panicked c op k) : (after l cap maxCap chs).Panicked c op k := by
  have := (lasting_inf h).panicked (Nat.le_max_left t chs.length) hc
  rwa [lasting_end (Nat.le_max_right _ _)] at this

/-- Nobody has panicked. -/
theorem no_panic {κ : Cfg Nat Nat} {m : Mem Nat} (h : Reach m κ) (hd : ((List.range κ.next).all fun c => (κ.panicOf c).isNone) = true) :
    ∀ c op k, ¬ κ.Panicked c op k := by
  rintro c op k ⟨⟨o, hb, st, v, s⟩, hr, -, hp⟩
  have hlt : c < κ.next := by
    rcases Nat.lt_or_ge c κ.next with hlt | hge
    · exact hlt
    · rw [h.new c hge] at hr; cases hr
  have := List.all_eq_true.1 hd c (List.mem_range.2 hlt)
  unfold Cfg.panicOf at this
  simp only at hp
  subst hp
  rw [hr] at this
  simp at this

/-- If all calls end, then the execution is strongly fair. -/
theorem lasting_fair (hi : (after l cap maxCap chs).Idle) : StronglyFair (lasting l cap maxCap chs) := by
  intro c hc
  obtain ⟨t, ht, ⟨op, hr⟩, -⟩ := hc chs.length
  rw [lasting_end ht] at hr
  exact absurd hr (hi c op)

/-- Everybody is done. -/
theorem idle_of {κ : Cfg Nat Nat} {m : Mem Nat} (h : Reach m κ) (hd : κ.idleB = true) : κ.Idle := Cfg.idleB_idle h.new hd

end Show

end Verif.Weak
