import Verif.Weak.WrapProof
import Verif.Props.DemoWeak
import Verif.Props.Wrap

/-!
# The counter of positions is a machine integer, under weak memory: C49

`ReachW W`: executions of the weak memory model on a machine whose `usize` has `W` values (`Weak/Wrap.lean`); `Reach`: executions with an
unbounded counter, about which all other properties of the weak memory model speak.
-/

namespace Verif

variable {α β : Type} {m : Mem α} {l : List α} {κ : Weak.Cfg α β}

namespace Weak.Show

/-- Perform a list of decisions on a machine with `W` integers. -/
def runOn (W : Nat) (κ : Cfg Nat Nat) : List (Choice Nat Nat) → Option (Cfg Nat Nat)
  | [] => some κ
  | ch :: chs =>
    match κ.perform ch with
    | none => none
    | some κ' => runOn W (κ'.wrap W) chs

/-- What a list of decisions leads to on a machine with `W` integers; the initial configuration if it is impossible. -/
def afterOn (W : Nat) (l : List Nat) (cap maxCap : Nat) (chs : List (Choice Nat Nat)) : Cfg Nat Nat :=
  (runOn W (Cfg.init (Demo.mem l cap maxCap)) chs).getD (Cfg.init (Demo.mem l cap maxCap))

theorem reachW_of {W : Nat} {m : Mem Nat} {κ κ' : Cfg Nat Nat} {chs : List (Choice Nat Nat)} (h : ReachW W m κ)
    (hr : runOn W κ chs = some κ') : ReachW W m κ' := by
  induction chs generalizing κ with
  | nil => injection hr with hr; subst hr; exact h
  | cons ch chs ih =>
    unfold runOn at hr
    split at hr
    · cases hr
    · next κ₁ h1 => exact ih (.step h (Cfg.perform_step h.new h1)) hr

theorem reachW_after (W : Nat) (l : List Nat) (cap maxCap : Nat) (chs : List (Choice Nat Nat)) :
    ReachW W (Demo.mem l cap maxCap) (afterOn W l cap maxCap chs) := by
  unfold afterOn
  rcases hh : runOn W (Cfg.init (Demo.mem l cap maxCap)) chs with _ | κ
  · exact .init
  · exact reachW_of .init hh

/-- `[10]`: call 1 is `vec.extend(0..usize::MAX)`; right after it has received its positions, call 2, of a thread that knows
nothing of it, is `vec.push(99)`. -/
def overflow : List (Choice Nat Nat) :=
  [.call (.extend Demo.allUsize) []] ++ go 1 1 ++ [.call (.push 99) []] ++ go 2 6

end Weak.Show

/-- **C49.** As long as the vector and all growth calls together asked for fewer than `W` positions, an execution of the weak
memory model on a machine with `W` integers is an execution with an unbounded counter, so that all other properties of the weak memory model hold; and
no value of the counter, hence no sum of a received position and a length, has overflowed. What is missing: the same without the bound, which is
false (`C49_weak_negation`). -/
theorem C49_weak_bounded_partial (hm : InitMem m l) {W : Nat} (h : Weak.ReachW W m κ) (hd : κ.Disciplined)
    (hb : l.length + κ.requested < W) : Weak.Reach m κ ∧ ∀ r ∈ κ.mem.res, r.val < W :=
  h.reach hm hd hb

/-- The execution `growth` on a 64-bit machine: 2 elements, calls for 1, 3 and 1 positions, three stale loads. -/
example : Weak.ReachW (2 ^ 64) (Demo.mem [10, 20] 2 8) (Weak.Show.afterOn (2 ^ 64) [10, 20] 2 8 Weak.Show.growth) ∧
    (Weak.Show.afterOn (2 ^ 64) [10, 20] 2 8 Weak.Show.growth).requested = 5 ∧
    (Weak.Show.afterOn (2 ^ 64) [10, 20] 2 8 Weak.Show.growth).Returned 1 (.push 7) (.nat 5) :=
  ⟨Weak.Show.reachW_after _ _ _ _ _, rfl, Weak.Cfg.returned_of rfl rfl⟩

/-- **C49.** False without the bound under weak memory too: the `extend` makes `len_reserved` wrap around to 0, and a `push` of another thread
receives position 0. No call has panicked; the write of the pushed value replaces the element that is there. -/
theorem C49_weak_negation : ∃ (m : Mem Nat) (κ : Weak.Cfg Nat Nat), InitMem m [10] ∧ Weak.ReachW (2 ^ 64) m κ ∧
    (∀ c op, κ.Called c op → op = .extend Demo.allUsize ∨ op = .push 99) ∧ (∀ c op k, ¬ κ.Panicked c op k) ∧
    m.val 0 = some 10 ∧ κ.Returned 2 (.push 99) (.nat 0) ∧ κ.mem.val 0 = some 99 := by
  refine ⟨Demo.mem [10] 2 8, Weak.Show.afterOn (2 ^ 64) [10] 2 8 Weak.Show.overflow, Demo.mem_init _ _ _ (by decide) (by decide),
    Weak.Show.reachW_after _ _ _ _ _, ?_, ?_, rfl, Weak.Cfg.returned_of rfl rfl, rfl⟩
  · rintro c op ⟨r, hc, rfl⟩
    match c, hc with
    | 0, hc => cases hc
    | 1, hc => cases hc; exact .inl rfl
    | 2, hc => cases hc; exact .inr rfl
    | c + 3, hc => cases hc
  · rintro c op k ⟨r, hc, -, hs⟩
    match c, hc with
    | 0, hc => cases hc
    | 1, hc => cases hc; cases hs
    | 2, hc => cases hc; cases hs
    | c + 3, hc => cases hc

end Verif
