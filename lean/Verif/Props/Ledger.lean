import Verif.Proof.Ledger
import Verif.Props.Owned
import Verif.Props.WeakValues

/-!
# Ownership of values: C50
-/

namespace Verif

variable {α β : Type} {m : Mem α} {l : List α}

/-! ## C50 -/

section Sc

variable {κ : Cfg α β}

/-- **C50.** At any moment at which all calls that move values are over: every value that was in the vector at the beginning or was
put into it by a call is exactly once in the vector, returned by a `replace`, or overwritten (`set`, `fill`, `fill_with`,
`update`). Values are neither lost nor duplicated, also if calls panic. -/
theorem C50_balanced (hm : InitMem m l) (h : Reach m l κ) (hs : κ.Settled) {n N : Nat} (hn : ∀ c op, κ.Called c op → c < n)
    (hN : ∀ i, N ≤ i → κ.content i = none) :
    ∃ book, Recorded κ.Returned κ.Panicked book ∧ Balanced l n book (valuesBelow N κ.content) :=
  (h.inv hm).book hs hn hN

/-- **C50.** Different values stay different: if calls bring values by `push`, `replace` and `set`, each a new one, then no two
positions hold the same value, no two calls of `replace` return the same value, and a value returned by `replace` is not in the
vector. -/
theorem C50_unique (hm : InitMem m l) (h : Reach m l κ) (hs : κ.Settled) (hl : l.Nodup)
    (hall : ∀ c op, κ.Called c op → op.MovesNothing ∨ ∃ v, op.Brings v)
    (hnew : ∀ c op v, κ.Called c op → op.Brings v → v ∉ l)
    (hone : ∀ c d op op' v, κ.Called c op → κ.Called d op' → op.Brings v → op'.Brings v → c = d) :
    (∀ i j v, κ.content i = some v → κ.content j = some v → i = j) ∧
    (∀ c d i j v w u, κ.Returned c (.elReplace i v) (.val u) → κ.Returned d (.elReplace j w) (.val u) → c = d) ∧
    ∀ c i v u, κ.Returned c (.elReplace i v) (.val u) → ∀ j, κ.content j ≠ some u := by
  have hI := h.inv hm
  have hn : ∀ c op, κ.Called c op → c < κ.next := fun c op ⟨_, _, _, hc⟩ => (hI.next c _ hc).2
  have hN : ∀ i, κ.w.spec.len ≤ i → κ.content i = none := by
    intro i hi
    rw [hI.content_eq]
    rcases hv : κ.w.spec.val i with _ | v
    · rfl
    · exact absurd (hI.inv.pub_len i (by rw [hv]; rfl)) (by omega)
  obtain ⟨book, hb, hbal⟩ := C50_balanced hm h hs hn hN
  exact hb.unique (fun c op x ⟨_, _, _, _, hc⟩ => ⟨_, _, _, hc⟩) (fun c op k ⟨_, _, _, _, hc⟩ => ⟨_, _, _, hc⟩) hn hN hbal hl hall
    hnew hone

/-- **C50.** From the beginning to the end: when no call is running and all growth calls returned, the values that `to_vec` returns,
those returned by `replace` and the overwritten ones are together exactly the initial values and those given to calls. -/
theorem C50_to_vec (hm : InitMem m l) (h : Reach m l κ) (hidle : κ.Idle)
    (hall : ∀ c op k, κ.Called c op → op.size = some k → ∃ x, κ.Returned c op x) {n : Nat} (hn : ∀ c op, κ.Called c op → c < n) :
    ∃ vs book, κ.w.mem.toVec = some (.ok vs) ∧ Recorded κ.Returned κ.Panicked book ∧ Balanced l n book vs := by
  obtain ⟨vs, hv, hto, -⟩ := C37_to_vec hm h hidle hall
  have hs : κ.Settled := by
    rintro c op ⟨ct, st, s, hc⟩
    cases s with
    | running p => exact absurd hc (hidle c op ct st p)
    | done x et fin => exact .inr (.inl ⟨x, _, _, _, _, hc⟩)
    | panicked k et fin => exact .inr (.inr ⟨k, _, _, _, _, hc⟩)
  obtain ⟨book, hb, hbal⟩ := C50_balanced hm h hs hn (N := vs.length) fun i hi => by
    rw [Cfg.content, hv i]; exact List.getElem?_eq_none hi
  refine ⟨vs, book, hto, hb, ?_⟩
  have : κ.content = fun i => vs[i]? := funext hv
  rwa [this, ofList_below fun i hi => List.getElem?_eq_none hi] at hbal

end Sc

namespace Demo

/-- `[10, 20]` with capacity 2: call 1 (`iter`); then, at the same time, calls 2 and 3 replace element 0 by 99 and 77, call 4 sets
element 1 to 55, call 5 swaps the two elements; call 6 pushes 7. -/
def trades : List (Choice Nat Nat) :=
  [.call .iter] ++ go 1 5 ++ [.call (.elReplace 0 99), .call (.elReplace 0 77), .call (.elSet 1 55), .call (.swap .spinning 0 1)] ++
  go 2 1 ++ go 3 1 ++ go 2 2 ++ go 4 1 ++ go 2 2 ++ go 4 3 ++ go 3 5 ++ go 5 16 ++ [.call (.push 7)] ++ go 6 10

theorem trades_possible : Possible [10, 20] 2 8 trades := by unfold Possible; rfl

/-- The execution `trades`. -/
def τ : Cfg Nat Nat := after [10, 20] 2 8 trades

theorem τ_init : InitMem (mem [10, 20] 2 8) [10, 20] := mem_init _ _ _ (by decide) (by decide)

theorem τ_reach : Reach (mem [10, 20] 2 8) [10, 20] τ := reach_after trades_possible

theorem τ_called {c : Cid} {op : Op Nat Nat} (h : τ.Called c op) : c < 7 ∧ (τ.calls c).map Rec.op = some op := by
  obtain ⟨ct, st, s, hc⟩ := h
  exact ⟨((τ_reach.inv τ_init).next c _ hc).2, by rw [hc]; rfl⟩

theorem τ_ops {c : Cid} {op : Op Nat Nat} (h : τ.Called c op) :
    (c = 1 ∧ op = .iter) ∨ (c = 2 ∧ op = .elReplace 0 99) ∨ (c = 3 ∧ op = .elReplace 0 77) ∨ (c = 4 ∧ op = .elSet 1 55) ∨
    (c = 5 ∧ op = .swap .spinning 0 1) ∨ (c = 6 ∧ op = .push 7) := by
  obtain ⟨h1, h2⟩ := τ_called h
  match c, h1, h2 with
  | 0, _, h2 => cases h2
  | 1, _, h2 => cases h2; simp
  | 2, _, h2 => cases h2; simp
  | 3, _, h2 => cases h2; simp
  | 4, _, h2 => cases h2; simp
  | 5, _, h2 => cases h2; simp
  | 6, _, h2 => cases h2; simp
  | c + 7, h1, _ => exact absurd h1 (Nat.not_lt.2 (Nat.le_add_left 7 c))

theorem τ_idle : τ.Idle := idle_of (by decide) (by decide) τ_reach rfl

theorem τ_settled : τ.Settled := by
  rintro c op ⟨ct, st, s, hc⟩
  cases s with
  | running p => exact absurd hc (τ_idle c op ct st p)
  | done x et fin => exact .inr (.inl ⟨x, _, _, _, _, hc⟩)
  | panicked k et fin => exact .inr (.inr ⟨k, _, _, _, _, hc⟩)

end Demo

open Demo in
/-- The two `replace` of `τ` return 10 and 99, `set` overwrites 20: `10, 20, 99, 77, 55, 7` become `55, 77, 7`, `10, 99` and `20`. -/
example : ∃ vs book, τ.w.mem.toVec = some (.ok vs) ∧ Recorded τ.Returned τ.Panicked book ∧ Balanced [10, 20] 7 book vs ∧
    book 2 = ⟨[99], [10], []⟩ ∧ book 3 = ⟨[77], [99], []⟩ ∧ book 5 = .none ∧ vs = [55, 77, 7] := by
  obtain ⟨vs, book, h1, h2, h3⟩ := C50_to_vec τ_init τ_reach τ_idle (by
    intro c op k hc hk
    rcases τ_ops hc with ⟨-, rfl⟩ | ⟨-, rfl⟩ | ⟨-, rfl⟩ | ⟨-, rfl⟩ | ⟨-, rfl⟩ | ⟨rfl, rfl⟩
    any_goals cases hk
    exact ⟨.nat 2, returned_of rfl rfl⟩) (n := 7) fun c op hc => (τ_called hc).1
  refine ⟨vs, book, h1, h2, h3, ?_, ?_, ?_, ?_⟩
  · obtain ⟨u, hu, hb⟩ := h2.returned 2 (.elReplace 0 99) (.val 10) (returned_of rfl rfl)
    cases hu; exact hb
  · obtain ⟨u, hu, hb⟩ := h2.returned 3 (.elReplace 0 77) (.val 99) (returned_of rfl rfl)
    cases hu; exact hb
  · exact h2.returned 5 (.swap .spinning 0 1) (.bool true) (returned_of rfl rfl)
  · have : τ.w.mem.toVec = some (.ok [55, 77, 7]) := rfl
    rw [this] at h1
    cases h1; rfl

open Demo in
/-- The hypotheses of `C50_balanced` and `C50_unique` hold for `τ`. -/
example : τ.Settled ∧ (∀ i, 3 ≤ i → τ.content i = none) ∧ (∀ c op, τ.Called c op → op.MovesNothing ∨ ∃ v, op.Brings v) ∧
    (∀ c op v, τ.Called c op → op.Brings v → v ∉ [10, 20]) ∧
    ∀ c d op op' v, τ.Called c op → τ.Called d op' → op.Brings v → op'.Brings v → c = d := by
  refine ⟨τ_settled, ?_, ?_, ?_, ?_⟩
  · intro i hi
    have hI := τ_reach.inv τ_init
    rw [hI.content_eq]
    rcases hv : τ.w.spec.val i with _ | v
    · rfl
    · have h1 := hI.inv.pub_len i (by rw [hv]; rfl)
      have h2 : τ.w.spec.len = 3 := rfl
      omega
  · intro c op hc
    rcases τ_ops hc with ⟨-, rfl⟩ | ⟨-, rfl⟩ | ⟨-, rfl⟩ | ⟨-, rfl⟩ | ⟨-, rfl⟩ | ⟨-, rfl⟩
    · exact .inl trivial
    · exact .inr ⟨_, rfl⟩
    · exact .inr ⟨_, rfl⟩
    · exact .inr ⟨_, rfl⟩
    · exact .inl trivial
    · exact .inr ⟨_, rfl⟩
  · intro c op v hc hb
    rcases τ_ops hc with ⟨-, rfl⟩ | ⟨-, rfl⟩ | ⟨-, rfl⟩ | ⟨-, rfl⟩ | ⟨-, rfl⟩ | ⟨-, rfl⟩ <;>
      simp only [Op.Brings] at hb <;> subst hb <;> decide
  · intro c d op op' v hc hd hb hb'
    rcases τ_ops hc with ⟨rfl, rfl⟩ | ⟨rfl, rfl⟩ | ⟨rfl, rfl⟩ | ⟨rfl, rfl⟩ | ⟨rfl, rfl⟩ | ⟨rfl, rfl⟩ <;>
      simp only [Op.Brings] at hb <;> subst hb <;>
    rcases τ_ops hd with ⟨rfl, rfl⟩ | ⟨rfl, rfl⟩ | ⟨rfl, rfl⟩ | ⟨rfl, rfl⟩ | ⟨rfl, rfl⟩ | ⟨rfl, rfl⟩ <;>
      simp only [Op.Brings] at hb' <;> first | rfl | (exact absurd hb' (by decide))

section Wm

variable {κ : Weak.Cfg α β}

/-- **C50.** The same with weak memory. -/
theorem C50_weak_balanced (hm : InitMem m l) (h : Weak.Reach m κ) (hd : κ.Disciplined) (hs : κ.Settled) {n N : Nat}
    (hn : ∀ c op, κ.Called c op → c < n) (hN : ∀ i, N ≤ i → κ.mem.val i = none) :
    ∃ book, Recorded κ.Returned κ.Panicked book ∧ Balanced l n book (valuesBelow N κ.mem.val) := by
  obtain ⟨t, E⟩ := C46_explained hm h hd
  exact E.book hs hn hN

/-- **C50.** The same with weak memory. -/
theorem C50_weak_unique (hm : InitMem m l) (h : Weak.Reach m κ) (hd : κ.Disciplined) (hs : κ.Settled) (hl : l.Nodup)
    (hall : ∀ c op, κ.Called c op → op.MovesNothing ∨ ∃ v, op.Brings v)
    (hnew : ∀ c op v, κ.Called c op → op.Brings v → v ∉ l)
    (hone : ∀ c d op op' v, κ.Called c op → κ.Called d op' → op.Brings v → op'.Brings v → c = d) :
    (∀ i j v, κ.mem.val i = some v → κ.mem.val j = some v → i = j) ∧
    (∀ c d i j v w u, κ.Returned c (.elReplace i v) (.val u) → κ.Returned d (.elReplace j w) (.val u) → c = d) ∧
    ∀ c i v u, κ.Returned c (.elReplace i v) (.val u) → ∀ j, κ.mem.val j ≠ some u := by
  obtain ⟨t, E⟩ := C46_explained hm h hd
  have hn : ∀ c op, κ.Called c op → c < κ.next := by
    rintro c op ⟨r, hr, -⟩
    refine Nat.lt_of_not_le fun hge => ?_
    rw [h.new c hge] at hr; cases hr
  have hN : ∃ N, ∀ i, N ≤ i → κ.mem.val i = none := by
    obtain ⟨σ, hR, hv⟩ := E.replay
    rw [← hv]
    exact hR.bounded
  obtain ⟨N, hN⟩ := hN
  obtain ⟨book, hb, hbal⟩ := E.book hs hn hN
  exact hb.unique (fun c op x ⟨r, h1, h2, _⟩ => ⟨r, h1, h2⟩) (fun c op k ⟨r, h1, h2, _⟩ => ⟨r, h1, h2⟩) hn hN hbal hl hall hnew hone

end Wm

namespace Weak.Show

/-- `[10, 20]` with capacity 2: 1. `iter`; 2, 3. two `replace` of element 0 at the same time, after 1; 4. `push 7` of a thread that
knows nothing; 5. `swap(0, 1)` of a thread that knows nothing. -/
def trades : List (Choice Nat Nat) :=
  [.call .iter []] ++ go 1 5 ++ [.call (.elReplace 0 99) [1], .call (.elReplace 0 77) [1], .call (.push 7) [],
    .call (.swap .spinning 0 1) []] ++ go 2 1 ++ go 3 1 ++ go 2 4 ++ go 3 5 ++ go 4 10 ++ go 5 16

theorem trades_possible : Possible [10, 20] 2 8 trades := by unfold Possible; rfl

/-- The execution `trades`. -/
def τ : Cfg Nat Nat := after [10, 20] 2 8 trades

theorem τ_reach : Reach (Demo.mem [10, 20] 2 8) τ := reach_after trades_possible

theorem τ_ops {c : Cid} {op : Op Nat Nat} (h : τ.Called c op) :
    (c = 1 ∧ op = .iter) ∨ (c = 2 ∧ op = .elReplace 0 99) ∨ (c = 3 ∧ op = .elReplace 0 77) ∨ (c = 4 ∧ op = .push 7) ∨
    (c = 5 ∧ op = .swap .spinning 0 1) := by
  obtain ⟨h1, h2⟩ := called_of τ_reach (k := 6) rfl h
  match c, h1, h2 with
  | 0, _, h2 => cases h2
  | 1, _, h2 => cases h2; simp
  | 2, _, h2 => cases h2; simp
  | 3, _, h2 => cases h2; simp
  | 4, _, h2 => cases h2; simp
  | 5, _, h2 => cases h2; simp
  | c + 6, h1, _ => exact absurd h1 (Nat.not_lt.2 (Nat.le_add_left 6 c))

theorem τ_disciplined : τ.Disciplined := by
  intro c e hc
  rcases τ_ops hc with ⟨-, h⟩ | ⟨-, h⟩ | ⟨-, h⟩ | ⟨-, h⟩ | ⟨-, h⟩ <;> cases h

theorem τ_settled : τ.Settled := by
  intro c op hc
  rcases τ_ops hc with ⟨rfl, rfl⟩ | ⟨rfl, rfl⟩ | ⟨rfl, rfl⟩ | ⟨rfl, rfl⟩ | ⟨rfl, rfl⟩
  · exact .inl trivial
  · exact .inr (.inl ⟨.val 10, Cfg.returned_of rfl rfl⟩)
  · exact .inr (.inl ⟨.val 99, Cfg.returned_of rfl rfl⟩)
  · exact .inr (.inl ⟨.nat 2, Cfg.returned_of rfl rfl⟩)
  · exact .inl trivial

end Weak.Show

open Weak.Show in
/-- In `τ` the two `replace` return 10 and 99. -/
example : ∃ book, Recorded τ.Returned τ.Panicked book ∧ Balanced [10, 20] 6 book (valuesBelow 3 τ.mem.val) ∧
    book 2 = ⟨[99], [10], []⟩ ∧ book 3 = ⟨[77], [99], []⟩ ∧ valuesBelow 3 τ.mem.val = [20, 77, 7] := by
  obtain ⟨book, h2, h3⟩ := C50_weak_balanced init τ_reach τ_disciplined τ_settled (n := 6) (N := 3)
    (fun c op hc => (called_of τ_reach rfl hc).1) (by
      intro i hi
      match i, hi with
      | i + 3, _ => rfl)
  refine ⟨book, h2, h3, ?_, ?_, rfl⟩
  · obtain ⟨u, hu, hb⟩ := h2.returned 2 (.elReplace 0 99) (.val 10) (Weak.Cfg.returned_of rfl rfl)
    cases hu; exact hb
  · obtain ⟨u, hu, hb⟩ := h2.returned 3 (.elReplace 0 77) (.val 99) (Weak.Cfg.returned_of rfl rfl)
    cases hu; exact hb

open Weak.Show in
/-- The hypotheses of `C50_weak_unique` hold for `τ`. -/
example : (∀ c op, τ.Called c op → op.MovesNothing ∨ ∃ v, op.Brings v) ∧
    (∀ c op v, τ.Called c op → op.Brings v → v ∉ [10, 20]) ∧
    ∀ c d op op' v, τ.Called c op → τ.Called d op' → op.Brings v → op'.Brings v → c = d := by
  refine ⟨?_, ?_, ?_⟩
  · intro c op hc
    rcases τ_ops hc with ⟨-, rfl⟩ | ⟨-, rfl⟩ | ⟨-, rfl⟩ | ⟨-, rfl⟩ | ⟨-, rfl⟩
    · exact .inl trivial
    · exact .inr ⟨_, rfl⟩
    · exact .inr ⟨_, rfl⟩
    · exact .inr ⟨_, rfl⟩
    · exact .inl trivial
  · intro c op v hc hb
    rcases τ_ops hc with ⟨-, rfl⟩ | ⟨-, rfl⟩ | ⟨-, rfl⟩ | ⟨-, rfl⟩ | ⟨-, rfl⟩ <;>
      simp only [Op.Brings] at hb <;> subst hb <;> decide
  · intro c d op op' v hc hd hb hb'
    rcases τ_ops hc with ⟨rfl, rfl⟩ | ⟨rfl, rfl⟩ | ⟨rfl, rfl⟩ | ⟨rfl, rfl⟩ | ⟨rfl, rfl⟩ <;>
      simp only [Op.Brings] at hb <;> subst hb <;>
    rcases τ_ops hd with ⟨rfl, rfl⟩ | ⟨rfl, rfl⟩ | ⟨rfl, rfl⟩ | ⟨rfl, rfl⟩ | ⟨rfl, rfl⟩ <;>
      simp only [Op.Brings] at hb' <;> first | rfl | (exact absurd hb' (by decide))

end Verif
