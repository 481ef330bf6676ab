import Verif.Weak.Interleave
import Verif.Weak.Published
import Verif.Props.Bulk
import Verif.Props.ReadBack
import Verif.Props.Swap
import Verif.Props.Owned
import Verif.Props.Starvation
import Verif.Props.Progress

/-!
# C64: interleavings are executions under weak memory

What an interleaving of the calls shows can happen under the C++ memory model as well, with one call happening before another one if and
only if it was over when the other one began. So the failures found with interleavings are failures of the code under the memory model.
-/

namespace Verif

variable {α β : Type} {m : Mem α} {l : List α}

open Weak

/-- **C64.** Everything that can be seen in an interleaving can be seen under weak memory; and if no call is running, then whoever owns
the vector afterwards finds exactly the memory of the interleaving. -/
theorem C64_included (hm : InitMem m l) {κ : Verif.Cfg α β} (h : Verif.Reach m l κ) (hd : κ.Disciplined) :
    ∃ κ' : Weak.Cfg α β, Weak.Reach m κ' ∧ κ'.Shows κ ∧
      (κ.Idle → ∃ V, κ'.Exclusive V ∧ ∀ M, κ'.Observes V M ↔ M = κ.w.mem) := by
  obtain ⟨κ', h1, h2⟩ := Mirrors.exists hm h hd
  refine ⟨κ', h1, h2.shows hm h, fun hi => ?_⟩
  have hI := h.inv hm
  have hg : κ.w.mem.growing = false := by
    rw [hI.inv.growing]
    rcases hx : κ.w.grower with _ | d
    · rfl
    · obtain ⟨⟨op, ct, st, s⟩, p, h3, h4⟩ := hI.grower hx
      dsimp only at h4
      subst h4
      exact absurd h3 (hi _ _ _ _ _)
  have hs : κ'.mem.settled = κ.w.mem := by
    obtain ⟨a, b, c, d, e, f, g, i⟩ := h2.mem
    cases hM : κ.w.mem
    rw [hM] at a b c d e f g i hg
    simp only [WMem.settled, Mem.mk.injEq] at *
    exact ⟨a.symm, b.symm, c.symm, d.symm, e.symm, hg.symm, f.symm, g.symm, i.symm⟩
  obtain ⟨H, V, hH, hmem⟩ := ended_all κ' (List.range κ'.next)
  have hV : κ'.Exclusive V := by
    refine ⟨H, hH, fun c r hc => (hmem c).2 ⟨?_, r, hc, fun p hp => ?_⟩⟩
    · obtain ⟨r₀, h3, -⟩ := h2.from hc
      rw [List.mem_range, h2.next]
      exact (hI.next c _ h3).2
    · exact (((h2.running c r.op).1 ⟨r, p, hc, rfl, hp⟩).elim fun _ ⟨_, _, h⟩ => hi _ _ _ _ _ h)
  refine ⟨V, hV, fun M => ⟨fun hM => by rw [(hV.complete h1).observes hM, hs], ?_⟩⟩
  rintro rfl
  rw [← hs]
  exact (ended_in (binv h1) hH).observes

/-- **C64.** The same for infinite executions, step by step: the calls that make steps in the interleaving make them under weak memory. -/
theorem C64_infinite (hm : InitMem m l) {κ : Nat → Verif.Cfg α β} (h : Verif.InfExec m l κ) (hd : ∀ t, (κ t).Disciplined)
    (who : Nat → Option Cid) (hw : ∀ t c, who t = some c → (κ t).Moves c (κ (t + 1))) :
    ∃ κ' : Nat → Weak.Cfg α β, Weak.InfExec m κ' ∧ (∀ t, (κ' t).Shows (κ t)) ∧
      ∀ t c, who t = some c → (κ' t).Moves c (κ' (t + 1)) := by
  obtain ⟨κ', h1, h2, h3⟩ := Mirrors.all hm h hd who hw
  exact ⟨κ', h1, fun t => (h2 t).shows hm ((h.exec t).reach (Nat.le_refl t)), h3⟩

section negations
open Demo

theorem Demo.disciplined_of {l : List Nat} {cap maxCap : Nat} {κ : Verif.Cfg Nat Nat} (hl : l.length ≤ cap) (hc : cap ≤ maxCap)
    (h : Verif.Reach (mem l cap maxCap) l κ) {ops : List (Op Nat Nat)}
    (hops : (List.range κ.next).filterMap (fun c => (κ.calls c).map Verif.Rec.op) = ops) (hn : ∀ op ∈ ops, ∀ e, op ≠ .deref e) :
    κ.Disciplined :=
  fun _ e h1 => absurd rfl (hn _ (called_of hl hc h hops h1) e)

/-- The calls of `Demo.reader` under weak memory. -/
theorem Demo.reader_weak (op : Op Nat Nat) (k : Nat) (x : Ret Nat Nat) (hp : Possible [10] 4 8 (reader op k)) (hd : ∀ e, op ≠ .deref e)
    (hops : (List.range (after [10] 4 8 (reader op k)).next).filterMap
      (fun c => ((after [10] 4 8 (reader op k)).calls c).map Verif.Rec.op) = [.push 20, .getCloned 1, op])
    (h1 : (after [10] 4 8 (reader op k)).Returned 1 (.push 20) (.nat 1)) (hb : (after [10] 4 8 (reader op k)).Before 1 3)
    (h3 : (after [10] 4 8 (reader op k)).Returned 3 op x) (hi : (after [10] 4 8 (reader op k)).Idle) :
    ∃ (κ : Weak.Cfg Nat Nat) (V : View), Weak.Reach (mem [10] 4 8) κ ∧ κ.Returned 1 (.push 20) (.nat 1) ∧ κ.HB 1 3 ∧
      (∀ c op', κ.Called c op' → op' = .push 20 ∨ op' = .getCloned 1 ∨ op' = op) ∧ κ.Returned 3 op x ∧
      κ.Exclusive V ∧ ∀ M, κ.Observes V M ↔ M = (after [10] 4 8 (reader op k)).w.mem := by
  have hre := reach_after hp
  obtain ⟨κ, g1, g2, g3⟩ := C64_included (mem_init [10] 4 8 (by decide) (by decide)) hre
    (disciplined_of (by decide) (by decide) hre hops fun op' ho e => by
      simp only [List.mem_cons, List.not_mem_nil, or_false] at ho
      rcases ho with rfl | rfl | rfl
      · simp
      · simp
      · exact hd e)
  obtain ⟨V, g4, g5⟩ := g3 hi
  refine ⟨κ, V, g1, (g2.returned _ _ _).2 h1, (g2.order _ _).2 hb, fun c op' hc => ?_, (g2.returned _ _ _).2 h3, g4, g5⟩
  have := called_of (by decide) (by decide) hre hops ((g2.called _ _).1 hc)
  simpa using this

/-- **C32, negation under weak memory**: the vector holds 10 and 20 and nobody writes, but `map` yields one value only. -/
theorem C32_weak_negation : ∃ κ : Weak.Cfg Nat Nat, Weak.Reach (mem [10] 4 8) κ ∧ κ.Returned 1 (.push 20) (.nat 1) ∧ κ.HB 1 3 ∧
    (∀ c op, κ.Called c op → op = .push 20 ∨ op = .getCloned 1 ∨ op = .map some) ∧
    κ.Returned 3 (.map some) (.betas [10]) := by
  have hp : Possible [10] 4 8 (reader (.map some) 9) := by unfold Possible; rfl
  obtain ⟨κ, V, h1, h2, h3, h4, h5, -⟩ := reader_weak (.map some) 9 (.betas [10]) hp (by simp) rfl
    (returned_of rfl rfl) (before_of rfl rfl (by decide)) (returned_of rfl rfl)
    (idle_of (by decide) (by decide) (reach_after hp) rfl)
  exact ⟨κ, h1, h2, h3, h4, h5⟩

/-- **C33, negation under weak memory**: `contains(20)` is false although `push(20)` happened before and nobody writes. -/
theorem C33_weak_negation : ∃ κ : Weak.Cfg Nat Nat, Weak.Reach (mem [10] 4 8) κ ∧ κ.Returned 1 (.push 20) (.nat 1) ∧ κ.HB 1 3 ∧
    (∀ c op, κ.Called c op → op = .push 20 ∨ op = .getCloned 1 ∨ op = .contains (· == ·) 20) ∧
    κ.Returned 3 (.contains (· == ·) 20) (.bool false) := by
  have hp : Possible [10] 4 8 (reader (.contains (· == ·) 20) 9) := by unfold Possible; rfl
  obtain ⟨κ, V, h1, h2, h3, h4, h5, -⟩ := reader_weak (.contains (· == ·) 20) 9 (.bool false) hp (by simp) rfl
    (returned_of rfl rfl) (before_of rfl rfl (by decide)) (returned_of rfl rfl)
    (idle_of (by decide) (by decide) (reach_after hp) rfl)
  exact ⟨κ, h1, h2, h3, h4, h5⟩

/-- **C35, negation under weak memory**: the vector holds 10 and 20, nobody writes, and the vector is equal to `[10]`. -/
theorem C35_weak_negation : ∃ κ : Weak.Cfg Nat Nat, Weak.Reach (mem [10] 4 8) κ ∧ κ.Returned 1 (.push 20) (.nat 1) ∧ κ.HB 1 3 ∧
    (∀ c op, κ.Called c op → op = .push 20 ∨ op = .getCloned 1 ∨ op = .eqList (fun u v => some (u == v)) [10]) ∧
    κ.Returned 3 (.eqList (fun u v => some (u == v)) [10]) (.bool true) := by
  have hp : Possible [10] 4 8 (reader (.eqList (fun u v => some (u == v)) [10]) 9) := by unfold Possible; rfl
  obtain ⟨κ, V, h1, h2, h3, h4, h5, -⟩ := reader_weak (.eqList (fun u v => some (u == v)) [10]) 9 (.bool true) hp (by simp) rfl
    (returned_of rfl rfl) (before_of rfl rfl (by decide)) (returned_of rfl rfl)
    (idle_of (by decide) (by decide) (reach_after hp) rfl)
  exact ⟨κ, h1, h2, h3, h4, h5⟩

/-- **C36, negation under weak memory**: the copy misses the second element although nobody writes. -/
theorem C36_weak_negation : ∃ κ : Weak.Cfg Nat Nat, Weak.Reach (mem [10] 4 8) κ ∧ κ.Returned 1 (.push 20) (.nat 1) ∧ κ.HB 1 3 ∧
    (∀ c op, κ.Called c op → op = .push 20 ∨ op = .getCloned 1 ∨ op = .iterCloned) ∧
    κ.Returned 3 (.iterCloned) (.vals [10]) := by
  have hp : Possible [10] 4 8 (reader (.iterCloned) 9) := by unfold Possible; rfl
  obtain ⟨κ, V, h1, h2, h3, h4, h5, -⟩ := reader_weak (.iterCloned) 9 (.vals [10]) hp (by simp) rfl
    (returned_of rfl rfl) (before_of rfl rfl (by decide)) (returned_of rfl rfl)
    (idle_of (by decide) (by decide) (reach_after hp) rfl)
  exact ⟨κ, h1, h2, h3, h4, h5⟩

/-- **C34, negation under weak memory**: `fill(7)` leaves out the second element although nobody else writes: whoever owns the vector
afterwards finds 7 and 20. -/
theorem C34_weak_negation : ∃ (κ : Weak.Cfg Nat Nat) (V : View), Weak.Reach (mem [10] 4 8) κ ∧ κ.Returned 1 (.push 20) (.nat 1) ∧
    κ.HB 1 3 ∧ (∀ c op, κ.Called c op → op = .push 20 ∨ op = .getCloned 1 ∨ op = .fill 7) ∧ κ.Returned 3 (.fill 7) .unit ∧
    κ.Exclusive V ∧ (∃ M, κ.Observes V M) ∧ ∀ M, κ.Observes V M → M.toVec = some (.ok [7, 20]) := by
  have hp : Possible [10] 4 8 (reader (.fill 7) 9) := by unfold Possible; rfl
  obtain ⟨κ, V, h1, h2, h3, h4, h5, h6, h7⟩ := reader_weak (.fill 7) 9 .unit hp (by simp) rfl
    (returned_of rfl rfl) (before_of rfl rfl (by decide)) (returned_of rfl rfl)
    (idle_of (by decide) (by decide) (reach_after hp) rfl)
  exact ⟨κ, V, h1, h2, h3, h4, h5, h6, ⟨_, (h7 _).2 rfl⟩, fun M hM => by rw [(h7 M).1 hM]; rfl⟩

/-- **C62, negation under weak memory**: nobody accesses elements, `push` returned 2, and calls that this happens before do not find
position 2. -/
theorem C62_weak_negation : ∃ κ : Weak.Cfg Nat Nat, Weak.Reach (mem [10] 4 8) κ ∧
    κ.Returned 2 (.push 8) (.nat 2) ∧ (κ.HB 2 3 ∧ κ.Returned 3 (.get 2) (.elem none)) ∧
    (κ.HB 2 4 ∧ κ.Panicked 4 (.index 2) .outOfBounds) ∧ (κ.HB 2 5 ∧ κ.Returned 5 .len (.nat 1)) ∧
    κ.HB 5 6 ∧ κ.Returned 6 (.getCloned 2) (.optVal (some 8)) := by
  have hre := reach_after behind_possible
  obtain ⟨κ, g1, g2, -⟩ := C64_included (mem_init [10] 4 8 (by decide) (by decide)) hre
    (disciplined_of (by decide) (by decide) hre (ops := [.push 7, .push 8, .get 2, .index 2, .len, .getCloned 2]) rfl (by simp))
  exact ⟨κ, g1, (g2.returned _ _ _).2 (returned_of rfl rfl),
    ⟨(g2.order _ _).2 (before_of rfl rfl (by decide)), (g2.returned _ _ _).2 (returned_of rfl rfl)⟩,
    ⟨(g2.order _ _).2 (before_of rfl rfl (by decide)), (g2.panicked _ _ _).2 (panicked_of rfl rfl)⟩,
    ⟨(g2.order _ _).2 (before_of rfl rfl (by decide)), (g2.returned _ _ _).2 (returned_of rfl rfl)⟩,
    (g2.order _ _).2 (before_of rfl rfl (by decide)), (g2.returned _ _ _).2 (returned_of rfl rfl)⟩

/-- **C20, deviation under weak memory**: `swap(0, 2)` returns `false` although `push(30)`, which returned 2, happens before it, and
nobody writes. -/
theorem C20_weak_false_in_bounds : ∃ (κ : Weak.Cfg Nat Nat) (V : View), Weak.Reach (mem [10, 20] 3 8) κ ∧
    κ.Returned 1 (.push 30) (.nat 2) ∧ κ.HB 1 3 ∧ κ.Returned 3 (.swap .spinning 0 2) (.bool false) ∧
    (∀ c op, κ.Called c op → op = .push 30 ∨ op = .getCloned 2 ∨ op = .swap .spinning 0 2) ∧
    κ.Exclusive V ∧ (∃ M, κ.Observes V M) ∧ ∀ M, κ.Observes V M → M.toVec = some (.ok [10, 20, 30]) := by
  have hp : Possible [10, 20] 3 8 swapMiss := by unfold Possible; rfl
  have hre := reach_after hp
  have hops : (List.range (after [10, 20] 3 8 swapMiss).next).filterMap
      (fun c => ((after [10, 20] 3 8 swapMiss).calls c).map Verif.Rec.op) = [.push 30, .getCloned 2, .swap .spinning 0 2] := rfl
  obtain ⟨κ, g1, g2, g3⟩ := C64_included (mem_init [10, 20] 3 8 (by decide) (by decide)) hre
    (disciplined_of (by decide) (by decide) hre hops (by simp))
  obtain ⟨V, g4, g5⟩ := g3 (idle_of (by decide) (by decide) hre rfl)
  refine ⟨κ, V, g1, (g2.returned _ _ _).2 (returned_of rfl rfl), (g2.order _ _).2 (before_of rfl rfl (by decide)),
    (g2.returned _ _ _).2 (returned_of rfl rfl), fun c op hc => ?_, g4, ⟨_, (g5 _).2 rfl⟩, fun M hM => by rw [(g5 M).1 hM]; rfl⟩
  have := called_of (by decide) (by decide) hre hops ((g2.called _ _).1 hc)
  simpa using this

/-- **C26 is false under weak memory**: after one failed push to a full vector, whoever owns the vector and knows everything violates the
contract of the underlying storage with `into_inner`, `to_vec` or `clear`. -/
theorem C26_weak_negation : ∃ (κ : Weak.Cfg Nat Nat) (V : View), Weak.Reach (mem [10, 20] 2 2) κ ∧
    κ.Panicked 1 (.push 7) .maxCapacity ∧ κ.Exclusive V ∧ (∃ M, κ.Observes V M) ∧ ∀ M, κ.Observes V M →
      M.content 0 = some 10 ∧ M.content 1 = some 20 ∧ M.intoInner.isNone ∧ M.toVec.isNone ∧
      ∀ cap maxCap, (M.clear cap maxCap).isNone := by
  have hp : Possible [10, 20] 2 2 ([.call (.push 7)] ++ go 1 3) := by unfold Possible; rfl
  have hre := reach_after hp
  obtain ⟨κ, g1, g2, g3⟩ := C64_included (mem_init [10, 20] 2 2 (by decide) (by decide)) hre
    (disciplined_of (by decide) (by decide) hre (ops := [.push 7]) rfl (by simp))
  obtain ⟨V, g4, g5⟩ := g3 (idle_of (by decide) (by decide) hre rfl)
  exact ⟨κ, V, g1, (g2.panicked _ _ _).2 (panicked_of rfl rfl), g4, ⟨_, (g5 _).2 rfl⟩, fun M hM => by
    rw [(g5 M).1 hM]; exact ⟨rfl, rfl, rfl, rfl, fun _ _ => rfl⟩⟩

/-- The call that makes a step in `Starve.exec`. -/
def Starve.who (t : Nat) : Option Cid :=
  match Starve.sched t with
  | .go c => some c
  | _ => none

theorem Starve.who_moves {t : Nat} {c : Cid} (h : Starve.who t = some c) : (Starve.exec t).Moves c (Starve.exec (t + 1)) := by
  obtain ⟨κ', hp⟩ := Option.isSome_iff_exists.1 (Starve.possible t)
  rw [Starve.exec_succ hp]
  unfold Starve.who at h
  split at h
  · next c' hs => cases h; rw [hs] at hp; exact Starve.perform_moves hp
  · cases h

theorem Starve.unmoved {t : Nat} {c : Cid} {r : Verif.Rec Nat Nat} (hc : (Starve.exec t).calls c = some r) (h : Starve.who t ≠ some c) :
    (Starve.exec (t + 1)).calls c = some r := by
  have hn := (((Starve.infExec.exec t).reach (Nat.le_refl t)).inv Starve.init0).next c r hc
  obtain ⟨κ', hp⟩ := Option.isSome_iff_exists.1 (Starve.possible t)
  rw [Starve.exec_succ hp]
  unfold Starve.who at h
  have key : ∀ {d : Cid} {r' : Verif.Rec Nat Nat} {s : Verif.Status Nat Nat}, d ≠ c → (Starve.exec t).setStatus d r' s c = some r := by
    intro d r' s hne
    unfold Verif.Cfg.setStatus
    rw [upd_apply, if_neg hne.symm, hc]
  split at h
  · next d hs =>
    have hne : d ≠ c := fun e => h (by rw [e])
    rw [hs] at hp
    obtain ⟨r', -, ⟨a, again, k, w', b, -, -, rfl⟩ | ⟨x, -, rfl⟩ | ⟨k, -, rfl⟩⟩ := Starve.perform_moves hp
    · exact key hne
    · exact key hne
    · exact key hne
  · next hs =>
    have hcall : Starve.sched t = .call (.getCloned 0) := by
      unfold Starve.sched at hs ⊢
      split
      · rfl
      · next h0 =>
        rw [if_neg h0] at hs
        split
        · next h4 => rw [if_pos h4] at hs; exact absurd rfl (hs _)
        · next h4 =>
          rw [if_neg h4] at hs
          split
          · rfl
          · next h9 =>
            rw [if_neg h9] at hs
            split
            · next h5 => rw [if_pos h5] at hs; exact absurd rfl (hs _)
            · next h5 => rw [if_neg h5] at hs; exact absurd rfl (hs _)
    rw [hcall] at hp
    simp only [Verif.Cfg.perform] at hp
    split at hp
    · cases hp
      show upd _ _ _ c = _
      rw [upd_apply, if_neg (Nat.ne_of_lt hn.2), hc]
    · cases hp

/-- **C22, C08: starvation under weak memory.** Scheduling is fair, all calls are `get_cloned(0)`, and the first one never ends. -/
theorem C22_weak_starvation : ∃ κ : Nat → Weak.Cfg Nat Nat, Weak.InfExec (mem [10, 20] 2 8) κ ∧ FairScheduling κ ∧
    (∀ t c op, (κ t).Called c op → op = .getCloned 0) ∧ ∀ t, 4 ≤ t → (κ t).Running 1 (.getCloned 0) := by
  obtain ⟨κ, h1, h2, h3⟩ := C64_infinite Starve.init0 Starve.infExec (fun t c e hc => nomatch Starve.called hc) Starve.who
    fun t c => Starve.who_moves
  refine ⟨κ, h1, fun t c op hc => ?_, fun t c op hc => Starve.called (((h2 t).called c op).1 hc), fun t ht =>
    ((h2 t).running _ _).2 (Starve.running_one t ht)⟩
  by_cases hw : ∃ t', t ≤ t' ∧ Starve.who t' = some c
  · obtain ⟨t', h4, h5⟩ := hw
    exact ⟨t', h4, h3 _ _ h5⟩
  · obtain ⟨ct, st, p, hc⟩ := ((h2 t).running c op).1 hc
    have stay : ∀ n, (Starve.exec (t + n)).calls c = some ⟨op, ct, st, .running p⟩ := fun n => by
      induction n with
      | zero => exact hc
      | succ n ih => exact Starve.unmoved ih fun e => hw ⟨t + n, by omega, e⟩
    have h4 := stay (4 + 9 * t - t)
    rw [show t + (4 + 9 * t - t) = 4 + 9 * t by omega] at h4
    rcases ((Starve.inv t).others c _ h4).2 with rfl | h5
    · refine absurd ⟨4 + 9 * t + 5, by omega, ?_⟩ hw
      unfold Starve.who
      rw [Starve.sched_period t 5 (by decide)]
      rfl
    · cases h5

end negations

section examples
open Demo

/-- For `C64_included`: two pushes that grow the storage, a swap and a read, interleaved. -/
example : Possible [10, 20] 2 8 mixed ∧ (after [10, 20] 2 8 mixed).Disciplined ∧ (after [10, 20] 2 8 mixed).Idle ∧
    (after [10, 20] 2 8 mixed).w.mem.toVec = some (.ok [20, 10, 7, 8]) :=
  ⟨mixed_possible, disciplined_of (by decide) (by decide) (reach_after mixed_possible)
    (ops := [.push 7, .push 8, .swap .spinning 0 1, .getCloned 1]) rfl (by simp), mixed_idle, rfl⟩

/-- For `C64_infinite`: `C22_weak_starvation` uses it. -/
example : Verif.InfExec (mem [10, 20] 2 8) [10, 20] Starve.exec ∧ (∀ t, (Starve.exec t).Disciplined) ∧
    ∀ t c, Starve.who t = some c → (Starve.exec t).Moves c (Starve.exec (t + 1)) :=
  ⟨Starve.infExec, (fun _ _ _ hc => nomatch Starve.called hc), fun _ _ => Starve.who_moves⟩

end examples

end Verif
