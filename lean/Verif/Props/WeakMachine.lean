import Verif.Weak.MachineProof
import Verif.Props.Machine
import Verif.Props.Weak
import Verif.Props.WeakWrap

/-!
# Machine arithmetic, under weak memory: C63

`ReachM A`: executions of the weak memory model in which the functions of the crate compute with the machine arithmetic `A`, and the counter of
positions wraps around (`Weak/Machine.lean`). `Reach`: executions with unbounded numbers, about which all other properties of the weak memory
model speak.
-/

namespace Verif

variable {α β : Type} {m : Mem α} {l : List α} {W : Nat} {κ : Weak.Cfg α β}

namespace Weak.Show

/-- Perform one decision with machine arithmetic. -/
def performM (A : Arith W) (κ : Cfg Nat Nat) : Choice Nat Nat → Option (Cfg Nat Nat)
  | .call op H =>
    match κ.join H with
    | none => none
    | some V =>
      if (op.needs.all (κ.revealedB H) && op.needsPtr.all (κ.revealedPtrB H) && op.slc?.all fun s => s.a < W) = true then
        some { κ with
          calls := upd κ.calls κ.next (some ⟨op, H, V, V, .running (op.progM A)⟩)
          next := κ.next + 1 }
      else none
  | .go c => (κ.go c none).map (Cfg.wrap W)
  | .at c t => (κ.go c (some t)).map (Cfg.wrap W)
  | .raise _ => none

theorem go_next {κ κ' : Cfg Nat Nat} {c : Cid} {t : Option Nat} (h : κ.go c t = some κ') : κ'.next = κ.next := by
  unfold Cfg.go at h
  (repeat' split at h) <;> cases h <;> rfl

theorem performM_step {A : Arith W} {κ κ' : Cfg Nat Nat} {ch : Choice Nat Nat} (h : performM A κ ch = some κ') : StepM A κ κ' := by
  cases ch with
  | call op H =>
    simp only [performM] at h
    split at h
    · cases h
    · next V hV =>
      split at h
      · rename_i hn
        simp only [Bool.and_eq_true, List.all_eq_true] at hn
        injection h with h
        subst h
        refine .call κ op H V (Cfg.ended_of hV) (fun i hi => Cfg.revealed_of (hn.1.1 i hi)) (fun i hi => Cfg.revealedPtr_of (hn.1.2 i hi)) fun s hs => ?_
        have := hn.2
        rw [hs] at this
        simpa using this
      · cases h
  | go c =>
    simp only [performM, Option.map_eq_some_iff] at h
    obtain ⟨κ₁, h1, rfl⟩ := h
    exact .other κ κ₁ (Cfg.go_step h1) (go_next h1)
  | «at» c t =>
    simp only [performM, Option.map_eq_some_iff] at h
    obtain ⟨κ₁, h1, rfl⟩ := h
    exact .other κ κ₁ (Cfg.go_step h1) (go_next h1)
  | raise n => cases h

/-- Perform a list of decisions with machine arithmetic. -/
def runM (A : Arith W) (κ : Cfg Nat Nat) : List (Choice Nat Nat) → Option (Cfg Nat Nat)
  | [] => some κ
  | ch :: chs =>
    match performM A κ ch with
    | none => none
    | some κ' => runM A κ' chs

/-- What a list of decisions leads to with machine arithmetic; the initial configuration if it is impossible. -/
def afterM (A : Arith W) (l : List Nat) (cap maxCap : Nat) (chs : List (Choice Nat Nat)) : Cfg Nat Nat :=
  (runM A (Cfg.init (Demo.mem l cap maxCap)) chs).getD (Cfg.init (Demo.mem l cap maxCap))

theorem reachM_of {A : Arith W} {m : Mem Nat} {κ κ' : Cfg Nat Nat} {chs : List (Choice Nat Nat)} (h : ReachM A m κ)
    (hr : runM A κ chs = some κ') : ReachM A m κ' := by
  induction chs generalizing κ with
  | nil => injection hr with hr; subst hr; exact h
  | cons ch chs ih =>
    unfold runM at hr
    split at hr
    · cases hr
    · next κ₁ h1 => exact ih (.step h (performM_step h1)) hr

theorem reachM_after (A : Arith W) (l : List Nat) (cap maxCap : Nat) (chs : List (Choice Nat Nat)) :
    ReachM A (Demo.mem l cap maxCap) (afterM A l cap maxCap chs) := by
  unfold afterM
  rcases hh : runM A (Cfg.init (Demo.mem l cap maxCap)) chs with _ | κ
  · exact .init
  · exact reachM_of .init hh

/-- `[10, 20, 30]`, capacity 4: `vec.extend([7, 8])` (call 1) allocates; `vec.len()` (call 2) of a thread that knows nothing of it and reads old
messages; `vec.chunks(2)` (call 3) after the `extend`; the second chunk is split at its last element (call 4); `vec[usize::MAX]` (call 5). -/
def piecesWeak : List (Choice Nat Nat) :=
  [.call (.extend (.ofList [7, 8])) []] ++ go 1 12 ++ [.call .len [], .go 2, .at 2 0, .at 2 0] ++ go 2 2 ++
  [.call (.chunks 2) [1]] ++ go 3 19 ++ [.call (.slSplitLast ⟨2, 2⟩) [3]] ++ go 4 2 ++ [.call (.index (2 ^ 64 - 1)) [1]] ++ go 5 5

/-- `[10]`: `vec.extend(0..usize::MAX)`. -/
def tooManyWeak : List (Choice Nat Nat) := [.call (.extend Demo.allUsize) []] ++ go 1 2

end Weak.Show

/-! ## C63 -/

/-- **C63 under weak memory.** As long as the vector and all growth calls together asked for fewer than `W` positions, every configuration reached
with machine arithmetic, whatever it does on overflow, looks like a configuration reached with unbounded numbers: the same messages of all
locations, the same calls, results and panics. -/
theorem C63_weak_same (hm : InitMem m l) {A : Arith W} (h : Weak.ReachM A m κ) (hd : κ.Disciplined) (hb : l.length + κ.requested < W) :
    ∃ κ', Weak.Reach m κ' ∧ κ.LooksLike κ' := by
  obtain ⟨κ', h1, h2⟩ := h.sim hm hd hb
  exact ⟨κ', h1, h2.looksLike⟩

theorem Weak.Cfg.LooksLike.symm {κ κ' : Weak.Cfg α β} (h : κ.LooksLike κ') : κ'.LooksLike κ :=
  ⟨h.1.symm, h.2.1.symm, h.2.2.1.symm, fun c => (h.2.2.2 c).symm⟩

theorem Weak.Cfg.LooksLike.called {κ κ' : Weak.Cfg α β} (h : κ.LooksLike κ') {c : Cid} {op : Op α β} (hc : κ.Called c op) : κ'.Called c op := by
  obtain ⟨r, hr, ho⟩ := hc
  have := h.2.2.2 c
  rw [hr] at this
  rcases hr' : κ'.calls c with _ | r' <;> rw [hr'] at this
  · cases this
  · injection this with this
    exact ⟨r', hr', by rw [← ho]; exact (congrArg Prod.fst this).symm⟩

theorem Weak.Cfg.LooksLike.disciplined {κ κ' : Weak.Cfg α β} (h : κ.LooksLike κ') (hd : κ.Disciplined) : κ'.Disciplined :=
  fun c e hc d op hdc => hd c e (h.symm.called hc) d op (h.symm.called hdc)

theorem Weak.Cfg.LooksLike.returned {κ κ' : Weak.Cfg α β} (h : κ.LooksLike κ') {c : Cid} {op : Op α β} {x : Ret α β} (hc : κ.Returned c op x) :
    κ'.Returned c op x := by
  obtain ⟨r, hr, ho, hs⟩ := hc
  have := h.2.2.2 c
  rw [hr] at this
  rcases hr' : κ'.calls c with _ | r' <;> rw [hr'] at this
  · cases this
  · injection this with this
    refine ⟨r', hr', by rw [← ho]; exact (congrArg Prod.fst this).symm, ?_⟩
    rcases hs' : r'.status with p | y | k <;> simp [Weak.Rec.outline, hs, hs'] at this
    rw [this.2.2.2.2]

theorem Weak.Cfg.LooksLike.panicked {κ κ' : Weak.Cfg α β} (h : κ.LooksLike κ') {c : Cid} {op : Op α β} {k : PanicKind} (hc : κ.Panicked c op k) :
    κ'.Panicked c op k := by
  obtain ⟨r, hr, ho, hs⟩ := hc
  have := h.2.2.2 c
  rw [hr] at this
  rcases hr' : κ'.calls c with _ | r' <;> rw [hr'] at this
  · cases this
  · injection this with this
    refine ⟨r', hr', by rw [← ho]; exact (congrArg Prod.fst this).symm, ?_⟩
    rcases hs' : r'.status with p | y | k <;> simp [Weak.Rec.outline, hs, hs'] at this
    rw [this.2.2.2.2]

/-- **C63 under weak memory.** In particular nothing bad happens (no data race, no access to storage that is not allocated, …), and no call panics
because of an overflow: the panics are the documented ones, whatever kind of panic an overflow is. -/
theorem C63_weak_panics (hm : InitMem m l) {A : Arith W} (h : Weak.ReachM A m κ) (hd : κ.Disciplined) (hb : l.length + κ.requested < W) :
    κ.bad = none ∧ ∀ c op k, κ.Panicked c op k → op.MayPanic k := by
  obtain ⟨κ', h1, h2⟩ := C63_weak_same hm h hd hb
  refine ⟨?_, fun c op k hp => C41_documented_panics hm h1 (h2.disciplined hd) (h2.panicked hp)⟩
  rw [h2.2.1]
  exact C41_nothing_bad hm h1 (h2.disciplined hd)

/-- **C63 under weak memory.** And the results are right: whatever is true of the results of calls in all executions of the weak memory model with
unbounded numbers is true of results computed with machine arithmetic. -/
theorem C63_weak_results (hm : InitMem m l) {A : Arith W} (h : Weak.ReachM A m κ) (hd : κ.Disciplined) (hb : l.length + κ.requested < W)
    {P : Op α β → Ret α β → Prop} (hP : ∀ (κ' : Weak.Cfg α β) c op x, Weak.Reach m κ' → κ'.Disciplined → κ'.Returned c op x → P op x)
    {c : Cid} {op : Op α β} {x : Ret α β} (hr : κ.Returned c op x) : P op x := by
  obtain ⟨κ', h1, h2⟩ := C63_weak_same hm h hd hb
  exact hP _ c op x h1 (h2.disciplined hd) (h2.returned hr)

namespace Weak.Show

/-- The execution `piecesWeak` in a debug build. -/
def ρd : Cfg Nat Nat := afterM (Arith.debug .unwrapNone (2 ^ 64)) [10, 20, 30] 4 8 piecesWeak

/-- The execution `piecesWeak` in a release build. -/
def ρr : Cfg Nat Nat := afterM (Arith.release (2 ^ 64)) [10, 20, 30] 4 8 piecesWeak

theorem disciplinedM {A : Arith W} {m : Mem Nat} {κ : Cfg Nat Nat} (h : ReachM A m κ) (hp : ∀ op ∈ ops κ, ∀ e, op ≠ .deref e) : κ.Disciplined := by
  rintro c e ⟨r, hr, ho⟩
  refine absurd ho (hp r.op (List.mem_filterMap.2 ⟨c, List.mem_range.2 ?_, by rw [hr]; rfl⟩) e)
  rcases Nat.lt_or_ge c κ.next with hlt | hge
  · exact hlt
  · rw [h.new c hge] at hr; cases hr

theorem piecesWeak_ops {A : Arith W} {m : Mem Nat} {κ : Cfg Nat Nat} (h : ReachM A m κ) (ho : ops κ =
    [.extend (.ofList [7, 8]), .len, .chunks 2, .slSplitLast ⟨2, 2⟩, .index (2 ^ 64 - 1)]) : κ.Disciplined := by
  refine disciplinedM h fun op hop e => ?_
  rw [ho] at hop
  simp only [List.mem_cons, List.not_mem_nil, or_false] at hop
  rintro rfl
  simp at hop

theorem ρd_ops : ops ρd = [.extend (.ofList [7, 8]), .len, .chunks 2, .slSplitLast ⟨2, 2⟩, .index (2 ^ 64 - 1)] := rfl

theorem ρr_ops : ops ρr = [.extend (.ofList [7, 8]), .len, .chunks 2, .slSplitLast ⟨2, 2⟩, .index (2 ^ 64 - 1)] := rfl

end Weak.Show

open Weak.Show in
/-- Growing, an old length, chunks, splitting off the last element of a chunk, and a panic that stays, in a debug build. -/
example : Weak.ReachM (Arith.debug .unwrapNone (2 ^ 64)) (Demo.mem [10, 20, 30] 4 8) ρd ∧ InitMem (Demo.mem [10, 20, 30] 4 8) [10, 20, 30] ∧
    ρd.Disciplined ∧ ρd.requested = 2 ∧ ρd.Returned 2 .len (.nat 3) ∧ ρd.Returned 3 (.chunks 2) (.slcs [⟨0, 2⟩, ⟨2, 2⟩, ⟨4, 1⟩]) ∧
    ρd.Returned 4 (.slSplitLast ⟨2, 2⟩) (.elemSlc (some (3, ⟨2, 1⟩))) ∧ ρd.Panicked 5 (.index (2 ^ 64 - 1)) .outOfBounds :=
  ⟨reachM_after _ _ _ _ _, Demo.mem_init _ _ _ (by decide) (by decide), piecesWeak_ops (reachM_after _ _ _ _ _) ρd_ops, rfl,
    Weak.Cfg.returned_of rfl rfl, Weak.Cfg.returned_of rfl rfl, Weak.Cfg.returned_of rfl rfl, Weak.Cfg.panicked_of rfl rfl⟩

open Weak.Show in
/-- The same in a release build. -/
example : Weak.ReachM (Arith.release (2 ^ 64)) (Demo.mem [10, 20, 30] 4 8) ρr ∧ ρr.Disciplined ∧ ρr.requested = 2 ∧
    ρr.Returned 3 (.chunks 2) (.slcs [⟨0, 2⟩, ⟨2, 2⟩, ⟨4, 1⟩]) :=
  ⟨reachM_after _ _ _ _ _, piecesWeak_ops (reachM_after _ _ _ _ _) ρr_ops, rfl, Weak.Cfg.returned_of rfl rfl⟩

/-- **C63 under weak memory.** The bound is needed, as in `C63_bound_needed`: `vec.extend(0..usize::MAX)` on a vector of one element panics in a
debug build because the sum of its first position and its length overflows, which is a panic of an undocumented kind. -/
theorem C63_weak_bound_needed : ∃ (m : Mem Nat) (κ : Weak.Cfg Nat Nat) (k : PanicKind), InitMem m [10] ∧
    Weak.ReachM (Arith.debug k (2 ^ 64)) m κ ∧ [10].length + κ.requested = 2 ^ 64 ∧ κ.Panicked 1 (.extend Demo.allUsize) k ∧
    ¬ (Op.extend Demo.allUsize : Op Nat Nat).MayPanic k :=
  ⟨Demo.mem [10] 2 8, Weak.Show.afterM (Arith.debug .unwrapNone (2 ^ 64)) [10] 2 8 Weak.Show.tooManyWeak, .unwrapNone,
    Demo.mem_init _ _ _ (by decide) (by decide), Weak.Show.reachM_after _ _ _ _ _, rfl, Weak.Cfg.panicked_of rfl rfl, id⟩

end Verif
