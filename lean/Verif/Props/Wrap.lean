import Verif.Proof.Wrap
import Verif.Proof.NextLemmas
import Verif.Props.Demo

/-!
# The counter of positions is a machine integer: C49

`ExecW W`: executions on a machine whose `usize` has `W` values (`Model/Wrap.lean`); `Exec`: executions with an unbounded
counter, about which all other properties speak.
-/

namespace Verif

variable {α β : Type} {m : Mem α} {l : List α}

namespace Demo

/-- The execution given by scheduling decisions on a machine with `W` integers. -/
def onMachine (W : Nat) (l : List Nat) (cap maxCap : Nat) (chs : List (Choice Nat Nat)) : Nat → Cfg Nat Nat
  | 0 => Cfg.init (mem l cap maxCap) l
  | t + 1 =>
    match chs[t]? with
    | some ch => (((onMachine W l cap maxCap chs t).perform ch).map (Cfg.wrap W)).getD (onMachine W l cap maxCap chs t)
    | none => onMachine W l cap maxCap chs t

/-- All these decisions are possible. -/
def PossibleOn (W : Nat) (l : List Nat) (cap maxCap : Nat) (chs : List (Choice Nat Nat)) : Prop :=
  ((List.range chs.length).all fun t =>
    (chs[t]?.bind fun ch => (onMachine W l cap maxCap chs t).perform ch).isSome) = true

theorem execW_of {W : Nat} {l : List Nat} {cap maxCap : Nat} {chs : List (Choice Nat Nat)} (h : PossibleOn W l cap maxCap chs) :
    ExecW W (mem l cap maxCap) l chs.length (onMachine W l cap maxCap chs) := by
  refine ⟨rfl, fun t ht => ?_⟩
  have h1 := List.all_eq_true.1 h t (List.mem_range.2 ht)
  rw [List.getElem?_eq_getElem ht] at h1
  simp only [Option.bind_some] at h1
  rcases hp : (onMachine W l cap maxCap chs t).perform chs[t] with _ | κ₁
  · rw [hp] at h1; cases h1
  · refine ⟨κ₁, Cfg.perform_step hp, ?_⟩
    simp only [onMachine, List.getElem?_eq_getElem ht, hp, Option.map_some, Option.getD_some]

/-- The iterator `0..usize::MAX`. -/
def allUsize : Iter Nat := ⟨2 ^ 64 - 1, (List.range (2 ^ 64 - 1)).map some⟩

/-- `[10]`: call 1 is `vec.extend(0..usize::MAX)`; right after it has received its positions, call 2 is `vec.push(99)`. -/
def overflow : List (Choice Nat Nat) :=
  [.call (.extend allUsize)] ++ go 1 1 ++ [.call (.push 99)] ++ go 2 6

theorem overflow_possible : PossibleOn (2 ^ 64) [10] 2 8 overflow := by unfold PossibleOn; rfl

theorem growth_possibleOn : PossibleOn (2 ^ 64) [10, 20] 2 8 growth := by unfold PossibleOn; rfl

end Demo

/-- **C49.** As long as the vector and all growth calls together asked for fewer than `W` positions, an execution on a
machine with `W` integers is an execution with an unbounded counter, so that all other properties hold; and no sum of a
position and a length overflows. What is missing: the same without the bound, which is false (`C49_negation`). -/
theorem C49_bounded_partial (hm : InitMem m l) {W n : Nat} {κ : Nat → Cfg α β} (h : ExecW W m l n κ)
    (hb : l.length + (κ n).requested < W) :
    Exec m l n κ ∧ ∀ c b k, Received κ n c b k → b + k < W := by
  have he := h.exec hm hb
  refine ⟨he, fun c b k hr => ?_⟩
  rw [he.received_iff hm] at hr
  have hi := he.inv hm (Nat.le_refl n)
  have := hi.reserved_le_requested
  obtain ⟨t1, t2, ht⟩ := List.append_of_mem hr
  have hleg := hi.inv.legal
  rw [ht] at hleg
  have hok : b = (specAt (.ofList l) t1).len := hleg t1 _ t2 rfl
  have hlen : (κ n).w.mem.reserved = (specAt (.ofList l) (κ n).w.trace).len := by rw [hi.inv.len_eq, hi.inv.spec_eq]
  have hs : specAt (.ofList l) (t1 ++ Ev.reserve c b k :: t2) = specAt (specNext (specAt (.ofList l) t1) (.reserve c b k)) t2 := by
    rw [specAt_append]; rfl
  have hmono := specAt_len (specNext (specAt (.ofList l) t1) (.reserve c b k)) t2
  rw [← hs, ← ht, ← hlen] at hmono
  simp only [specNext] at hmono
  omega

/-- The execution `growth` on a 64-bit machine: 2 elements, calls for 1, 3 and 1 positions. -/
example : ExecW (2 ^ 64) (Demo.mem [10, 20] 2 8) [10, 20] Demo.growth.length
      (Demo.onMachine (2 ^ 64) [10, 20] 2 8 Demo.growth) ∧
    (Demo.onMachine (2 ^ 64) [10, 20] 2 8 Demo.growth Demo.growth.length).requested = 5 ∧
    (Demo.onMachine (2 ^ 64) [10, 20] 2 8 Demo.growth Demo.growth.length).Returned 2 (.extend (.ofList [1, 2, 3])) (.nat 2) :=
  ⟨Demo.execW_of Demo.growth_possibleOn, rfl, Demo.returned_of rfl rfl⟩

/-- **C49.** False without the bound: `vec.extend(0..usize::MAX)` on a vector with one element (a safe call that cannot succeed)
makes `len_reserved` wrap around to 0, and a `push` of another thread receives position 0 and overwrites the element there.
No call writes to elements, no call has panicked. -/
theorem C49_negation : ∃ (m : Mem Nat) (n : Nat) (κ : Nat → Cfg Nat Nat), InitMem m [10] ∧ ExecW (2 ^ 64) m [10] n κ ∧
    (∀ c op, (κ n).Called c op → op = .extend Demo.allUsize ∨ op = .push 99) ∧ (∀ c op k, ¬ (κ n).Panicked c op k) ∧
    (κ 0).content 0 = some 10 ∧ (κ n).Returned 2 (.push 99) (.nat 0) ∧ (κ n).content 0 = some 99 := by
  refine ⟨Demo.mem [10] 2 8, Demo.overflow.length, Demo.onMachine (2 ^ 64) [10] 2 8 Demo.overflow, Demo.mem_init _ _ _ (by decide) (by decide),
    Demo.execW_of Demo.overflow_possible, ?_, ?_, rfl, Demo.returned_of rfl rfl, rfl⟩
  · rintro c op ⟨ct, st, s, hc⟩
    match c, hc with
    | 0, hc => cases hc
    | 1, hc => cases hc; exact .inl rfl
    | 2, hc => cases hc; exact .inr rfl
    | c + 3, hc => cases hc
  · rintro c op k ⟨ct, st, et, fin, hc⟩
    match c, hc with
    | 0, hc => cases hc
    | 1, hc => cases hc
    | 2, hc => cases hc
    | c + 3, hc => cases hc

end Verif
