import Verif.Proof.MachineExec
import Verif.Props.Safety
import Verif.Props.Wrap

/-!
# Machine arithmetic: C63

`ExecM A`: executions in which the functions of the crate compute with the machine arithmetic `A`, and the counter of positions wraps around
(`Model/Machine.lean`). `Exec`: executions with unbounded numbers, about which all other properties speak.
-/

namespace Verif

variable {α β : Type} {m : Mem α} {l : List α} {W n : Nat} {κ : Nat → Cfg α β}

/-- Arithmetic of debug builds: a result that is not representable is a panic, here of the kind `k`. -/
def Arith.debug (k : PanicKind) (W : Nat) : Arith W where
  add a b := if a + b < W then .ok (a + b) else .error k
  sub a b := if b ≤ a then .ok (a - b) else .error k
  mul a b := if a * b < W then .ok (a * b) else .error k
  add_eq _ _ h := if_pos h
  sub_eq _ _ h := if_pos h
  mul_eq _ _ h := if_pos h

/-- Arithmetic of release builds: results are reduced modulo `W`. -/
def Arith.release (W : Nat) : Arith W where
  add a b := .ok ((a + b) % W)
  sub a b := .ok (if b ≤ a then a - b else (a + W - b) % W)
  mul a b := .ok (a * b % W)
  add_eq _ _ h := by rw [Nat.mod_eq_of_lt h]
  sub_eq _ _ h := by rw [if_pos h]
  mul_eq _ _ h := by rw [Nat.mod_eq_of_lt h]

namespace Demo

/-- Perform one scheduling decision with machine arithmetic. -/
def performM (A : Arith W) (κ : Cfg Nat Nat) : Choice Nat Nat → Option (Cfg Nat Nat)
  | .call op =>
      if (op.needs.all κ.revealedB && op.needsPtr.all κ.revealedPtrB && op.slc?.all fun s => s.a < W) = true then
        some { κ with
          calls := upd κ.calls κ.next (some ⟨op, κ.clock, κ.w, .running (op.progM A)⟩)
          next := κ.next + 1
          clock := κ.clock + 1 }
      else none
  | .go c => (κ.perform (.go c)).map (Cfg.wrap W)

theorem performM_step {A : Arith W} {κ κ' : Cfg Nat Nat} {ch : Choice Nat Nat} (h : performM A κ ch = some κ') : StepM A κ κ' := by
  cases ch with
  | call op =>
    simp only [performM] at h
    split at h
    · rename_i hn
      simp only [Bool.and_eq_true, List.all_eq_true] at hn
      injection h with h
      subst h
      refine .invoke κ op (fun i hi => κ.revealed_of (hn.1.1 i hi)) (fun i hi => κ.revealedPtr_of (hn.1.2 i hi)) fun s hs => ?_
      have := hn.2
      rw [hs] at this
      simpa using this
    · cases h
  | go c =>
    simp only [performM, Option.map_eq_some_iff] at h
    obtain ⟨κ₁, h1, rfl⟩ := h
    refine .other κ κ₁ (Cfg.perform_step h1) ?_
    simp only [Cfg.perform] at h1
    (repeat' split at h1) <;> cases h1 <;> rfl

/-- The execution given by scheduling decisions, with machine arithmetic. -/
def withArith (A : Arith W) (l : List Nat) (cap maxCap : Nat) (chs : List (Choice Nat Nat)) : Nat → Cfg Nat Nat
  | 0 => Cfg.init (mem l cap maxCap) l
  | t + 1 => (chs[t]?.bind fun ch => performM A (withArith A l cap maxCap chs t) ch).getD (withArith A l cap maxCap chs t)

/-- All these decisions are possible. -/
def PossibleWith (A : Arith W) (l : List Nat) (cap maxCap : Nat) (chs : List (Choice Nat Nat)) : Prop :=
  ((List.range chs.length).all fun t => (chs[t]?.bind fun ch => performM A (withArith A l cap maxCap chs t) ch).isSome) = true

theorem execM_of {A : Arith W} {l : List Nat} {cap maxCap : Nat} {chs : List (Choice Nat Nat)} (h : PossibleWith A l cap maxCap chs) :
    ExecM A (mem l cap maxCap) l chs.length (withArith A l cap maxCap chs) := by
  refine ⟨rfl, fun t ht => ?_⟩
  have h1 := List.all_eq_true.1 h t (List.mem_range.2 ht)
  rcases hp : (chs[t]?.bind fun ch => performM A (withArith A l cap maxCap chs t) ch) with _ | κ₁
  · rw [hp] at h1; cases h1
  · rw [List.getElem?_eq_getElem ht] at hp
    have : withArith A l cap maxCap chs (t + 1) = κ₁ := by
      simp only [withArith, List.getElem?_eq_getElem ht, hp, Option.getD_some]
    rw [this]
    exact performM_step hp

/-- `[10, 20, 30, 40, 50]`, capacity 6: `vec.extend([7, 8])` (call 1) allocates, `vec.chunks(3)` (call 2) returns slices of 3, 3 and 1 elements;
the second one is cut into chunks of 2 elements (call 3), the last of which is copied (call 4); `vec.split_last()` (call 5). -/
def pieces : List (Choice Nat Nat) :=
  [.call (.extend (.ofList [7, 8]))] ++ go 1 12 ++ [.call (.chunks 3)] ++ go 2 19 ++ [.call (.slChunks ⟨3, 3⟩ 2)] ++ go 3 1 ++
  [.call (.slIterCloned ⟨5, 1⟩)] ++ go 4 4 ++ [.call .splitLast] ++ go 5 14

theorem pieces_debug : PossibleWith (Arith.debug .unwrapNone (2 ^ 64)) [10, 20, 30, 40, 50] 6 8 pieces := by unfold PossibleWith; rfl

theorem pieces_release : PossibleWith (Arith.release (2 ^ 64)) [10, 20, 30, 40, 50] 6 8 pieces := by unfold PossibleWith; rfl

/-- `[10]`: `vec[usize::MAX]`. -/
def indexMax : List (Choice Nat Nat) := [.call (.index (2 ^ 64 - 1))] ++ go 1 5

theorem indexMax_debug : PossibleWith (Arith.debug .unwrapNone (2 ^ 64)) [10] 2 8 indexMax := by unfold PossibleWith; rfl

/-- `[10]`: `vec.extend(0..usize::MAX)`. -/
def tooMany : List (Choice Nat Nat) := [.call (.extend allUsize)] ++ go 1 2

theorem tooMany_debug : PossibleWith (Arith.debug .unwrapNone (2 ^ 64)) [10] 2 8 tooMany := by unfold PossibleWith; rfl

end Demo

theorem Cfg.LooksLike.returned {κ κ' : Cfg α β} (h : κ.LooksLike κ') {c : Cid} {op : Op α β} {x : Ret α β} :
    κ.Returned c op x ↔ κ'.Returned c op x := by
  have key : ∀ {κ κ' : Cfg α β}, (∀ c, (κ.calls c).map Rec.outline = (κ'.calls c).map Rec.outline) → κ.Returned c op x → κ'.Returned c op x := by
    intro κ κ' h ⟨ct, st, et, fin, hc⟩
    have := h c
    rw [hc] at this
    rcases hr : κ'.calls c with _ | ⟨op', ct', st', p | ⟨y, t, w⟩ | ⟨k, t, w⟩⟩ <;> rw [hr] at this <;>
      simp [Rec.outline] at this
    obtain ⟨rfl, rfl, rfl, rfl, rfl, rfl⟩ := this
    exact ⟨_, _, _, _, hr⟩
  exact ⟨key h.2.2.2.2, key fun c => (h.2.2.2.2 c).symm⟩

theorem Cfg.LooksLike.panicked {κ κ' : Cfg α β} (h : κ.LooksLike κ') {c : Cid} {op : Op α β} {k : PanicKind} :
    κ.Panicked c op k ↔ κ'.Panicked c op k := by
  have key : ∀ {κ κ' : Cfg α β}, (∀ c, (κ.calls c).map Rec.outline = (κ'.calls c).map Rec.outline) → κ.Panicked c op k → κ'.Panicked c op k := by
    intro κ κ' h ⟨ct, st, et, fin, hc⟩
    have := h c
    rw [hc] at this
    rcases hr : κ'.calls c with _ | ⟨op', ct', st', p | ⟨y, t, w⟩ | ⟨k, t, w⟩⟩ <;> rw [hr] at this <;>
      simp [Rec.outline] at this
    obtain ⟨rfl, rfl, rfl, rfl, rfl, rfl⟩ := this
    exact ⟨_, _, _, _, hr⟩
  exact ⟨key h.2.2.2.2, key fun c => (h.2.2.2.2 c).symm⟩

/-! ## C63 -/

/-- **C63.** As long as the vector and all growth calls together asked for fewer than `W` positions, every execution with machine arithmetic,
whatever it does on overflow, looks at all times like an execution with unbounded numbers: the same memory, the same calls, results and panics. -/
theorem C63_same (hm : InitMem m l) {A : Arith W} (h : ExecM A m l n κ) (hb : l.length + (κ n).requested < W) :
    ∃ κ' : Nat → Cfg α β, Exec m l n κ' ∧ ∀ t, t ≤ n → (κ t).LooksLike (κ' t) := by
  obtain ⟨κ', h1, h2⟩ := h.sim hm hb
  exact ⟨κ', h1, fun t ht => (h2 t ht).looksLike⟩

/-- **C63.** In particular no call panics because of an overflow: the panics are the documented ones, whatever kind of panic an overflow is. -/
theorem C63_panics (hm : InitMem m l) {A : Arith W} (h : ExecM A m l n κ) (hb : l.length + (κ n).requested < W) {c : Cid} {op : Op α β}
    {k : PanicKind} (hp : (κ n).Panicked c op k) : op.MayPanic k := by
  obtain ⟨κ', h1, h2⟩ := C63_same hm h hb
  exact C42_documented_panics hm (h1.reach (Nat.le_refl n)) ((h2 n (Nat.le_refl n)).panicked.1 hp)

/-- **C63.** And the results are right: whatever is true of the results of calls in all executions with unbounded numbers is true of results
computed with machine arithmetic. -/
theorem C63_results (hm : InitMem m l) {A : Arith W} (h : ExecM A m l n κ) (hb : l.length + (κ n).requested < W)
    {P : Op α β → Ret α β → Prop} (hP : ∀ (κ' : Cfg α β) c op x, Reach m l κ' → κ'.Returned c op x → P op x) {c : Cid} {op : Op α β} {x : Ret α β}
    (hr : (κ n).Returned c op x) : P op x := by
  obtain ⟨κ', h1, h2⟩ := C63_same hm h hb
  exact hP _ c op x (h1.reach (Nat.le_refl n)) ((h2 n (Nat.le_refl n)).returned.1 hr)

set_option maxRecDepth 8000 in
/-- Growing, cutting into chunks, chunks of a chunk, and splitting off the last element, in a debug build. -/
example : ExecM (Arith.debug .unwrapNone (2 ^ 64)) (Demo.mem [10, 20, 30, 40, 50] 6 8) [10, 20, 30, 40, 50] Demo.pieces.length
      (Demo.withArith (Arith.debug .unwrapNone (2 ^ 64)) [10, 20, 30, 40, 50] 6 8 Demo.pieces) ∧
    InitMem (Demo.mem [10, 20, 30, 40, 50] 6 8) [10, 20, 30, 40, 50] ∧
    (Demo.withArith (Arith.debug .unwrapNone (2 ^ 64)) [10, 20, 30, 40, 50] 6 8 Demo.pieces Demo.pieces.length).requested = 2 ∧
    (Demo.withArith (Arith.debug .unwrapNone (2 ^ 64)) [10, 20, 30, 40, 50] 6 8 Demo.pieces Demo.pieces.length).Returned 2 (.chunks 3)
      (.slcs [⟨0, 3⟩, ⟨3, 3⟩, ⟨6, 1⟩]) ∧
    (Demo.withArith (Arith.debug .unwrapNone (2 ^ 64)) [10, 20, 30, 40, 50] 6 8 Demo.pieces Demo.pieces.length).Returned 3 (.slChunks ⟨3, 3⟩ 2)
      (.slcs [⟨3, 2⟩, ⟨5, 1⟩]) :=
  ⟨Demo.execM_of Demo.pieces_debug, Demo.mem_init _ _ _ (by decide) (by decide), rfl, Demo.returned_of rfl rfl, Demo.returned_of rfl rfl⟩

set_option maxRecDepth 8000 in
/-- The same in a release build. -/
example : ExecM (Arith.release (2 ^ 64)) (Demo.mem [10, 20, 30, 40, 50] 6 8) [10, 20, 30, 40, 50] Demo.pieces.length
      (Demo.withArith (Arith.release (2 ^ 64)) [10, 20, 30, 40, 50] 6 8 Demo.pieces) ∧
    (Demo.withArith (Arith.release (2 ^ 64)) [10, 20, 30, 40, 50] 6 8 Demo.pieces Demo.pieces.length).Returned 5 .splitLast
      (.elemSlc (some (6, ⟨0, 6⟩))) :=
  ⟨Demo.execM_of Demo.pieces_release, Demo.returned_of rfl rfl⟩

/-- A panic that stays, in a debug build: `vec[usize::MAX]` is out of bounds. -/
example : ExecM (Arith.debug .unwrapNone (2 ^ 64)) (Demo.mem [10] 2 8) [10] Demo.indexMax.length
      (Demo.withArith (Arith.debug .unwrapNone (2 ^ 64)) [10] 2 8 Demo.indexMax) ∧
    (Demo.withArith (Arith.debug .unwrapNone (2 ^ 64)) [10] 2 8 Demo.indexMax Demo.indexMax.length).Panicked 1 (.index (2 ^ 64 - 1)) .outOfBounds ∧
    (Op.index (2 ^ 64 - 1) : Op Nat Nat).MayPanic .outOfBounds :=
  ⟨Demo.execM_of Demo.indexMax_debug, Demo.panicked_of rfl rfl, trivial⟩

/-- **C63.** The bound is needed: with a vector of one element `vec.extend(0..usize::MAX)` asks for as many positions as there are numbers; in a
debug build the sum of its first position and its length overflows, which is a panic of an undocumented kind. -/
theorem C63_bound_needed : ∃ (m : Mem Nat) (n : Nat) (κ : Nat → Cfg Nat Nat) (k : PanicKind), InitMem m [10] ∧
    ExecM (Arith.debug k (2 ^ 64)) m [10] n κ ∧ [10].length + (κ n).requested = 2 ^ 64 ∧ (κ n).Panicked 1 (.extend Demo.allUsize) k ∧
    ¬ (Op.extend Demo.allUsize : Op Nat Nat).MayPanic k :=
  ⟨_, _, _, _, Demo.mem_init _ _ _ (by decide) (by decide), Demo.execM_of Demo.tooMany_debug, rfl, Demo.panicked_of rfl rfl, id⟩

end Verif
