import Verif.Props.Demo
import Verif.Proof.Fair

/-!
# Concrete infinite executions

For the examples beside the progress theorems: a finite schedule after which no call is running, followed by
`reserve_maximum_capacity(0)` forever (which changes nothing).
-/

namespace Verif.Demo

/-- The schedule, then nothing of interest forever. -/
def forever (l : List Nat) (cap maxCap : Nat) (chs : List (Choice Nat Nat)) (t : Nat) : Cfg Nat Nat :=
  let κ := after l cap maxCap (chs.take t)
  { κ with clock := κ.clock + (t - chs.length) }

theorem forever_le {l : List Nat} {cap maxCap : Nat} {chs : List (Choice Nat Nat)} {t : Nat} (h : t ≤ chs.length) :
    forever l cap maxCap chs t = after l cap maxCap (chs.take t) := by
  unfold forever
  rw [Nat.sub_eq_zero_of_le h]
  rfl

theorem forever_ge {l : List Nat} {cap maxCap : Nat} {chs : List (Choice Nat Nat)} {t : Nat} (h : chs.length ≤ t) :
    forever l cap maxCap chs t =
      { after l cap maxCap chs with clock := (after l cap maxCap chs).clock + (t - chs.length) } := by
  unfold forever
  rw [List.take_of_length_le h]

theorem infExec_forever {l : List Nat} {cap maxCap : Nat} {chs : List (Choice Nat Nat)}
    (h : Possible l cap maxCap chs) (hi : (after l cap maxCap chs).Idle)
    (hp : (after l cap maxCap chs).w.mem.pol = exact) :
    InfExec (mem l cap maxCap) l (forever l cap maxCap chs) := by
  have he := exec_after h
  refine ⟨by rw [forever_le (Nat.zero_le _)]; exact he.init, fun t => ?_⟩
  rcases Nat.lt_or_ge t chs.length with hlt | hge
  · rw [forever_le (by omega), forever_le (by omega)]
    exact he.next t hlt
  · rw [forever_ge hge, forever_ge (by omega)]
    generalize after l cap maxCap chs = κ at *
    have := Step.reserveMax { κ with clock := κ.clock + (t - chs.length) } 0 hi
    simp only at this
    have h1 : κ.w.mem.pol.reserve κ.w.mem.maxCap 0 = κ.w.mem.maxCap := by rw [hp]; simp [exact]
    rw [Mem.reserveMax, h1, show κ.clock + (t - chs.length) + 1 = κ.clock + (t + 1 - chs.length) by omega] at this
    exact this

theorem idle_forever {l : List Nat} {cap maxCap : Nat} {chs : List (Choice Nat Nat)}
    (hi : (after l cap maxCap chs).Idle) {t : Nat} (ht : chs.length ≤ t) : (forever l cap maxCap chs t).Idle := by
  rw [forever_ge ht]; exact hi

/-- If all calls end, the execution is fair. -/
theorem fair_of_idle {m : Mem Nat} {l : List Nat} {κ : Nat → Cfg Nat Nat} (hm : InitMem m l) (h : InfExec m l κ) {T : Nat}
    (hT : ∀ s, T ≤ s → (κ s).Idle) : Fair κ := by
  intro t c op hrun
  obtain ⟨ct, st, p, hc⟩ := hrun
  rcases h.stay_or_advance hm hc rfl with hst | ⟨s, r', hs, -, -, hmv, -⟩
  · exact absurd (hst (max t T) (by omega)).1 (hT _ (by omega) c op ct st p)
  · exact ⟨s, hs, hmv⟩

theorem fair_forever {l : List Nat} {cap maxCap : Nat} {chs : List (Choice Nat Nat)} (hl : l.length ≤ cap)
    (hc : cap ≤ maxCap) (h : Possible l cap maxCap chs) (hi : (after l cap maxCap chs).Idle)
    (hp : (after l cap maxCap chs).w.mem.pol = exact) : Fair (forever l cap maxCap chs) :=
  fair_of_idle (mem_init l cap maxCap hl hc) (infExec_forever h hi hp) fun _ hs => idle_forever hi hs

/-- Every call of the execution is a call of its last configuration. -/
theorem called_forever {l : List Nat} {cap maxCap : Nat} {chs : List (Choice Nat Nat)} (hl : l.length ≤ cap)
    (hc : cap ≤ maxCap) (h : Possible l cap maxCap chs) {t : Nat} {c : Cid} {op : Op Nat Nat}
    (hr : (forever l cap maxCap chs t).Called c op) : (after l cap maxCap chs).Called c op := by
  rcases Nat.lt_or_ge t chs.length with hlt | hge
  · rw [forever_le (by omega)] at hr
    have := (exec_after h).called_mono (mem_init l cap maxCap hl hc) (s := t) (t := chs.length) (by omega)
      (Nat.le_refl _) hr
    simpa using this
  · rw [forever_ge hge] at hr
    exact hr

theorem panicked_forever {l : List Nat} {cap maxCap : Nat} {chs : List (Choice Nat Nat)} (hl : l.length ≤ cap)
    (hc : cap ≤ maxCap) (h : Possible l cap maxCap chs) {t : Nat} {c : Cid} {op : Op Nat Nat} {k : PanicKind}
    (hr : (forever l cap maxCap chs t).Panicked c op k) : (after l cap maxCap chs).Panicked c op k := by
  rcases Nat.lt_or_ge t chs.length with hlt | hge
  · rw [forever_le (by omega)] at hr
    obtain ⟨ct, st, et, fin, hr⟩ := hr
    obtain ⟨r', h1, -, -, -, h2, -⟩ := (exec_after h).rec_mono (mem_init l cap maxCap hl hc) (s := t)
      (t := chs.length) hr (by omega) (Nat.le_refl _)
    rw [h2 _ rfl] at h1
    exact ⟨ct, st, et, fin, by simpa using h1⟩
  · rw [forever_ge hge] at hr
    exact hr

theorem ended_forever {l : List Nat} {cap maxCap : Nat} {chs : List (Choice Nat Nat)} (hl : l.length ≤ cap)
    (hc : cap ≤ maxCap) (h : Possible l cap maxCap chs) {t : Nat} {c : Cid} {r : Rec Nat Nat} {x}
    (hr : (forever l cap maxCap chs t).calls c = some r) (he : r.status.ended = some x) :
    (after l cap maxCap chs).calls c = some r := by
  rcases Nat.lt_or_ge t chs.length with hlt | hge
  · rw [forever_le (by omega)] at hr
    obtain ⟨r', h1, -, -, -, h2, -⟩ := (exec_after h).rec_mono (mem_init l cap maxCap hl hc) (s := t)
      (t := chs.length) hr (by omega) (Nat.le_refl _)
    rw [h2 _ he] at h1
    simpa using h1
  · rw [forever_ge hge] at hr
    exact hr

/-- Only finitely many calls are made. -/
theorem finite_forever {l : List Nat} {cap maxCap : Nat} {chs : List (Choice Nat Nat)} (hl : l.length ≤ cap)
    (hc : cap ≤ maxCap) (h : Possible l cap maxCap chs) : FinitelyManyCalls (forever l cap maxCap chs) := by
  refine ⟨(after l cap maxCap chs).next, fun t c op hr => ?_⟩
  obtain ⟨ct, st, s, hr⟩ := called_forever hl hc h hr
  exact (((reach_after h).inv (mem_init l cap maxCap hl hc)).next c _ hr).2

/-- If no call panicked, growth is intact. -/
theorem intact_of {l : List Nat} {cap maxCap : Nat} {κ : Cfg Nat Nat} (hl : l.length ≤ cap) (hc : cap ≤ maxCap)
    (h : Reach (mem l cap maxCap) l κ) (hi : (List.range κ.next).any (fun c => (κ.panicOf c).isSome) = false)
    {c : Cid} {op : Op Nat Nat} {k : PanicKind} : ¬ κ.Panicked c op k := by
  rintro ⟨ct, st, et, fin, hr⟩
  have := known hl hc h hr
  rw [List.any_eq_false] at hi
  exact hi c this (by simp [Cfg.panicOf, hr])

end Verif.Demo
