import Verif.Props.DemoWeak

/-!
# C41: the chosen memory orderings suffice

Theorems about all executions of the weak memory model (`Weak/Model.lean`).
-/

namespace Verif

variable {α β : Type} {m : Mem α} {l : List α} {κ : Weak.Cfg α β}

namespace Weak

/-- The restrictions that hold in a given execution. -/
def modeOf (κ : Cfg α β) (lock : Prop) : Mode := ⟨fun e => ∃ c, κ.Called c (.deref e), lock, fun _ _ => True⟩

theorem winv_of (hm : InitMem m l) (h : Reach m κ) (hd : κ.Disciplined) :
    ∃ K K0, WInv (modeOf κ False) m.maxCap l.length κ K K0 :=
  winv hm h fun c op hc => ⟨fun i ⟨c', hc'⟩ => hd c' i hc' c op hc, fun _ he => ⟨c, he ▸ hc⟩, fun h => h.elim, fun _ _ _ => trivial⟩

theorem winv_of_nolock (hm : InitMem m l) (h : Reach m κ) (hd : κ.Disciplined) (hl : κ.Only fun op => ¬ op.Locks) :
    ∃ K K0, WInv (modeOf κ True) m.maxCap l.length κ K K0 :=
  winv hm h fun c op hc => ⟨fun i ⟨c', hc'⟩ => hd c' i hc' c op hc, fun _ he => ⟨c, he ▸ hc⟩, fun _ => hl c op hc, fun _ _ _ => trivial⟩

theorem Know.has {D : Mode} {K : Cid → Know} {c : Cid} {r : Rec α β} (g : GInv D κ.mem K) (k : KInv D κ.mem (κ.viewOf c) (K c))
    (hr : κ.calls c = some r) {i : Nat} (hv : (K c).V i) (ha : (K c).A i) : κ.HasValue c i := by
  have hv := k.v i hv
  have ha := (k.a i ha).1
  rw [Cfg.viewOf_some hr] at hv ha
  obtain ⟨q, hq, hn⟩ := hv.1
  exact ⟨r, hr, ha, g.st_val i q hq hn, hv.2⟩

end Weak

open Weak

/-- Nothing bad happens: conflicting non-atomic accesses (values of the elements, the storage while it grows) are ordered by
happens-before, only values that were written are read, only storage whose allocation happened before is touched, and `swap` never
has two mutable references to one value. -/
theorem C41_nothing_bad (hm : InitMem m l) (h : Weak.Reach m κ) (hd : κ.Disciplined) : κ.bad = none := by
  obtain ⟨K, K0, hi⟩ := winv_of hm h hd
  exact hi.bad

example : Show.κ.bad = none ∧ Show.π.bad = none :=
  ⟨C41_nothing_bad Show.init Show.reach Show.disciplined, C41_nothing_bad Show.π_init Show.π_reach Show.π_disciplined⟩

/-- The discipline is necessary: user code that takes a pointer with a relaxed load and reads through it races with the `push`. -/
theorem C41_relaxed_pointer_races : ∃ (m : Mem Nat) (κ : Weak.Cfg Nat Nat), InitMem m [] ∧ Weak.Reach m κ ∧
    κ.bad = some .race ∧ Show.ops κ = [.push 7, .getRaw .relaxed 0, .deref 0] :=
  ⟨_, Show.after [] 2 8 (Show.pointer .relaxed).dropLast, Show.π_init, Show.reach_after (by unfold Show.Possible; rfl), rfl, rfl⟩

/-- Different growth calls receive different positions. -/
theorem C41_growth_disjoint (hm : InitMem m l) (h : Weak.Reach m κ) (hd : κ.Disciplined) {c d : Cid} {op op' : Op α β}
    {n n' b b' : Nat} (hc : κ.Returned c op (.nat b)) (hn : op.size = some n) (hc' : κ.Returned d op' (.nat b'))
    (hn' : op'.size = some n') (hne : c ≠ d) {i : Nat} (hi : b ≤ i ∧ i < b + n) : ¬ (b' ≤ i ∧ i < b' + n') := by
  obtain ⟨K, K0, hw⟩ := winv_of hm h hd
  intro hi'
  obtain ⟨x, hx, -, -, -, h1⟩ := (hw.done hc).grow n hn
  obtain ⟨x', hx', -, -, -, h2⟩ := (hw.done hc').grow n' hn'
  injection hx with hx; injection hx' with hx'; subst hx hx'
  exact hne (hw.g.disjR c d i (h1 i hi.1 hi.2).1 (h2 i hi'.1 hi'.2).1)

example : Show.κ.Returned 1 (.push 7) (.nat 5) ∧ Show.κ.Returned 2 (.extend (.ofList [1, 2, 3])) (.nat 2) ∧
    ¬ (2 ≤ 5 ∧ 5 < 2 + 3) :=
  ⟨Cfg.returned_of rfl rfl, Cfg.returned_of rfl rfl,
    C41_growth_disjoint Show.init Show.reach Show.disciplined (c := 1) (d := 2) (Cfg.returned_of rfl rfl) rfl
      (Cfg.returned_of rfl rfl) rfl (by decide) ⟨Nat.le_refl 5, by decide⟩⟩

/-- Growth calls receive positions behind the initial elements, and behind those of all growth calls that happen before. -/
theorem C41_growth_ordered (hm : InitMem m l) (h : Weak.Reach m κ) (hd : κ.Disciplined) {d : Cid} {op' : Op α β}
    {n' b' : Nat} (hc' : κ.Returned d op' (.nat b')) (hn' : op'.size = some n') :
    l.length ≤ b' ∧ ∀ c op n b, κ.HB c d → κ.Returned c op (.nat b) → op.size = some n → b + n ≤ b' := by
  obtain ⟨K, K0, hw⟩ := winv_of hm h hd
  obtain ⟨x', hx', -, h2, -⟩ := (hw.done hc').grow n' hn'
  injection hx' with hx'; subst hx'
  obtain ⟨r, hr, -⟩ := hc'
  refine ⟨Nat.le_trans (Nat.le_trans hw.zrk (hw.base d r hr).rk) h2, fun c op n b hb hc hn => ?_⟩
  obtain ⟨x, hx, -, -, h1, -⟩ := (hw.done hc).grow n hn
  injection hx with hx; subst hx
  exact Nat.le_trans (Nat.le_trans h1 (hw.hb_le hb).2.rk) h2

example : Show.κ.HB 2 8 ∧ Show.κ.Returned 8 (.push 9) (.nat 6) ∧ 2 + 3 ≤ 6 :=
  ⟨Cfg.hb_of (H := [2]) rfl (by decide), Cfg.returned_of rfl rfl,
    (C41_growth_ordered Show.init Show.reach Show.disciplined (d := 8) (op' := .push 9) (Cfg.returned_of rfl rfl) rfl).2 2
      (.extend (.ofList [1, 2, 3])) 3 2 (Cfg.hb_of (H := [2]) rfl (by decide)) (Cfg.returned_of rfl rfl) rfl⟩

/-- An element handed out by `get`, `iter`, a slice, … has a value for the call that received it and for all calls that happen
after. -/
theorem C41_handed_out (hm : InitMem m l) (h : Weak.Reach m κ) (hd : κ.Disciplined) {c : Cid} {op : Op α β} {x : Ret α β}
    (hc : κ.Returned c op x) {i : Nat} (hi : i ∈ x.elements) :
    κ.HasValue c i ∧ ∀ d op', κ.HB c d → κ.Called d op' → κ.HasValue d i := by
  obtain ⟨K, K0, hw⟩ := winv_of hm h hd
  have he := (hw.done hc).el i hi
  constructor
  · obtain ⟨r, hr, -⟩ := hc
    exact Know.has hw.g (hw.k c) hr he.1 he.2
  · rintro d op' hb ⟨r, hr, -⟩
    have hl := (hw.hb_le hb).2
    have hl' : (K0 d).Le (K d) := hw.now d r hr
    exact Know.has hw.g (hw.k d) hr (hl'.v i (hl.v i he.1)) (hl'.a i (hl.a i he.2))

example : Show.κ.Returned 5 (.get 4) (.elem (some 4)) ∧ Show.κ.HasValue 5 4 ∧ Show.κ.HasValue 6 4 := by
  have hr : Show.κ.Returned 5 (.get 4) (.elem (some 4)) := Cfg.returned_of rfl rfl
  have h := C41_handed_out Show.init Show.reach Show.disciplined hr (i := 4) (by decide)
  exact ⟨hr, h.1, h.2 6 (.elCloned 4) (Cfg.hb_of (H := [5]) rfl (by decide)) ⟨_, rfl, rfl⟩⟩

/-- A value is not known to everybody: the stale `len` could still see that position 2 has no value. -/
example : ¬ Show.κ.HasValue 3 2 := by
  rintro ⟨r, hr, -, -, h⟩
  have hr : some _ = some r := hr
  injection hr with hr
  subst hr
  exact h 0 (.init .NONE) (Nat.le_refl 0) rfl rfl

/-- The same for pointers and references to values. -/
theorem C41_pointers (hm : InitMem m l) (h : Weak.Reach m κ) (hd : κ.Disciplined) {c : Cid} {op : Op α β} {x : Ret α β}
    (hc : κ.Returned c op x) {i : Nat} (hi : i ∈ x.pointers) :
    κ.HasValue c i ∧ ∀ d op', κ.HB c d → κ.Called d op' → κ.HasValue d i := by
  obtain ⟨K, K0, hw⟩ := winv_of hm h hd
  have he := (hw.done hc).pt i hi
  constructor
  · obtain ⟨r, hr, -⟩ := hc
    exact Know.has hw.g (hw.k c) hr he.1 he.2.1
  · rintro d op' hb ⟨r, hr, -⟩
    have hl := (hw.hb_le hb).2
    have hl' : (K0 d).Le (K d) := hw.now d r hr
    exact Know.has hw.g (hw.k d) hr (hl'.v i (hl.v i he.1)) (hl'.a i (hl.a i he.2.1))

example : Show.π.Returned 2 (.getRaw .seqCst 0) (.ptr (some 0)) ∧ Show.π.HasValue 2 0 ∧ Show.π.HasValue 3 0 := by
  have hr : Show.π.Returned 2 (.getRaw .seqCst 0) (.ptr (some 0)) := Cfg.returned_of rfl rfl
  have h := C41_pointers Show.π_init Show.π_reach Show.π_disciplined hr (i := 0) (by decide)
  exact ⟨hr, h.1, h.2 3 (.deref 0) (Cfg.hb_of (H := [2]) rfl (by decide)) ⟨_, rfl, rfl⟩⟩

/-- The elements a growth call added have a value for it and for all calls that happen after. -/
theorem C41_added (hm : InitMem m l) (h : Weak.Reach m κ) (hd : κ.Disciplined) {c : Cid} {i : Nat} (hc : κ.Added c i) :
    κ.HasValue c i ∧ ∀ d op', κ.HB c d → κ.Called d op' → κ.HasValue d i := by
  obtain ⟨K, K0, hw⟩ := winv_of hm h hd
  obtain ⟨op, n, b, hr, hn, hi⟩ := hc
  obtain ⟨x, hx, -, -, -, h1⟩ := (hw.done hr).grow n hn
  injection hx with hx; subst hx
  obtain ⟨-, hv, ha, -⟩ := h1 i hi.1 hi.2
  constructor
  · obtain ⟨r, hr, -⟩ := hr
    exact Know.has hw.g (hw.k c) hr hv ha
  · rintro d op' hb ⟨r, hr, -⟩
    have hl := (hw.hb_le hb).2
    have hl' : (K0 d).Le (K d) := hw.now d r hr
    exact Know.has hw.g (hw.k d) hr (hl'.v i (hl.v i hv)) (hl'.a i (hl.a i ha))

example : Show.κ.Added 1 5 ∧ Show.κ.HasValue 1 5 ∧ Show.κ.HasValue 7 5 := by
  have ha : Show.κ.Added 1 5 := ⟨.push 7, 1, 5, Cfg.returned_of rfl rfl, rfl, by decide, by decide⟩
  have h := C41_added Show.init Show.reach Show.disciplined ha
  exact ⟨ha, h.1, h.2 7 (.getCloned 5) (Cfg.hb_of (H := [1]) rfl (by decide)) ⟨_, rfl, rfl⟩⟩

/-- Calls panic only for their documented reasons, also with stale loads. -/
theorem C41_documented_panics (hm : InitMem m l) (h : Weak.Reach m κ) (hd : κ.Disciplined) {c : Cid} {op : Op α β}
    {k : PanicKind} (hc : κ.Panicked c op k) : op.MayPanic k := by
  obtain ⟨K, K0, hw⟩ := winv_of hm h hd
  exact (hw.failed hc).may

example : Show.κ.Panicked 9 (.index 9) .outOfBounds ∧ (Op.index 9 : Op Nat Nat).MayPanic .outOfBounds := by
  have hr : Show.κ.Panicked 9 (.index 9) .outOfBounds := Cfg.panicked_of rfl rfl
  exact ⟨hr, C41_documented_panics Show.init Show.reach Show.disciplined hr⟩

/-- The length never decreases along happens-before. -/
theorem C41_len_monotone (hm : InitMem m l) (h : Weak.Reach m κ) (hd : κ.Disciplined) {c d : Cid} {op op' : Op α β}
    {x x' : Ret α β} {n n' : Nat} (hb : κ.HB c d) (hc : κ.Returned c op x) (hn : op.ReportsLen n x)
    (hc' : κ.Returned d op' x') (hn' : op'.ReportsLen n' x') : l.length ≤ n ∧ n ≤ n' := by
  obtain ⟨K, K0, hw⟩ := winv_of hm h hd
  have h1 := (hw.done hc).len n hn
  have h2 := (hw.done hc').len n' hn'
  obtain ⟨r, hr, -⟩ := hc
  exact ⟨Nat.le_trans (Nat.le_trans hw.zwn (hw.base c r hr).wn) h1.1,
    Nat.le_trans (Nat.le_trans h1.2.1 (hw.hb_le hb).2.wn) h2.1⟩

/-- Two calls to `len`, the second after the first. -/
def Weak.Show.lens : List (Choice Nat Nat) := Show.growth ++ [.call .len [3]] ++ Show.go 10 5

example : ∃ κ : Weak.Cfg Nat Nat, κ.Returned 3 .len (.nat 2) ∧ κ.Returned 10 .len (.nat 7) ∧ κ.HB 3 10 ∧ 2 ≤ 7 := by
  have hp : Show.Possible [10, 20] 2 8 Show.lens := by unfold Show.Possible; rfl
  have h1 : (Show.after [10, 20] 2 8 Show.lens).Returned 3 .len (.nat 2) := Cfg.returned_of rfl rfl
  have h2 : (Show.after [10, 20] 2 8 Show.lens).Returned 10 .len (.nat 7) := Cfg.returned_of rfl rfl
  have hb : (Show.after [10, 20] 2 8 Show.lens).HB 3 10 := Cfg.hb_of (H := [3]) rfl (by decide)
  have hd : (Show.after [10, 20] 2 8 Show.lens).Disciplined := by
    refine Show.disciplined_of (Show.reach_after hp) fun op hop e => ?_
    have : Show.ops (Show.after [10, 20] 2 8 Show.lens) = Show.ops Show.κ ++ [.len] := rfl
    rw [this, Show.ops_eq] at hop
    simp only [List.mem_append, List.mem_cons, List.not_mem_nil, or_false] at hop
    rintro rfl
    simp at hop
  exact ⟨_, h1, h2, hb, (C41_len_monotone Show.init (Show.reach_after hp) hd hb h1 rfl h2 rfl).2⟩

/-- All elements below a reported length have a value for the call that got the length and all that happen after. -/
theorem C41_len_valued (hm : InitMem m l) (h : Weak.Reach m κ) (hd : κ.Disciplined) {c : Cid} {op : Op α β}
    {x : Ret α β} {n : Nat} (hc : κ.Returned c op x) (hn : op.ReportsLen n x) {i : Nat} (hi : i < n) :
    κ.HasValue c i ∧ ∀ d op', κ.HB c d → κ.Called d op' → κ.HasValue d i := by
  obtain ⟨K, K0, hw⟩ := winv_of hm h hd
  have he := (hw.done hc).len n hn |>.2.2.1 i hi
  constructor
  · obtain ⟨r, hr, -⟩ := hc
    exact Know.has hw.g (hw.k c) hr he.1 he.2
  · rintro d op' hb ⟨r, hr, -⟩
    have hl := (hw.hb_le hb).2
    have hl' : (K0 d).Le (K d) := hw.now d r hr
    exact Know.has hw.g (hw.k d) hr (hl'.v i (hl.v i he.1)) (hl'.a i (hl.a i he.2))

example : Show.κ.Returned 4 .len (.nat 6) ∧ Show.κ.HasValue 4 5 ∧ Show.κ.HasValue 5 5 := by
  have hr : Show.κ.Returned 4 .len (.nat 6) := Cfg.returned_of rfl rfl
  have h := C41_len_valued Show.init Show.reach Show.disciplined hr rfl (i := 5) (by decide)
  exact ⟨hr, h.1, h.2 5 (.get 4) (Cfg.hb_of (H := [4]) rfl (by decide)) ⟨_, rfl, rfl⟩⟩

/-- After a length greater than `i` was reported, `get(i)` finds the element, `vec[i]` does not panic and `split_at(i)` does not
panic. -/
theorem C41_after_len (hm : InitMem m l) (h : Weak.Reach m κ) (hd : κ.Disciplined) {c d : Cid} {op : Op α β}
    {x : Ret α β} {n : Nat} (hb : κ.HB c d) (hc : κ.Returned c op x) (hn : op.ReportsLen n x) {i : Nat} (hi : i < n) :
    (∀ y, κ.Returned d (.get i) y → y = .elem (some i)) ∧ (∀ k, ¬ κ.Panicked d (.index i) k) ∧
    (∀ k, ¬ κ.Panicked d (.splitAt i) k) := by
  obtain ⟨K, K0, hw⟩ := winv_of hm h hd
  have h1 := (hw.done hc).len n hn |>.2.1
  have h2 := (hw.hb_le hb).2.wn
  refine ⟨fun y hy => ?_, fun k hk => ?_, fun k hk => ?_⟩
  · rcases (hw.done hy).get i rfl with h3 | ⟨-, h3, -⟩
    · exact h3
    · omega
  · have := (hw.failed hk).index i rfl; omega
  · have := (hw.failed hk).split i rfl; omega

example : ∀ y, Show.κ.Returned 5 (.get 4) y → y = .elem (some 4) :=
  (C41_after_len Show.init Show.reach Show.disciplined (c := 4) (d := 5) (op := .len) (Cfg.hb_of (H := [4]) rfl (by decide))
    (Cfg.returned_of rfl rfl) rfl (i := 4) (by decide)).1

/-- `get_cloned(i)` finds a value if position `i` was added before. -/
theorem C41_cloned_after_growth (hm : InitMem m l) (h : Weak.Reach m κ) (hd : κ.Disciplined) {d : Cid} {i : Nat}
    {x : Ret α β} (hi : i < l.length ∨ ∃ c, κ.Added c i ∧ κ.HB c d) (hx : κ.Returned d (.getCloned i) x) :
    ∃ v, x = .optVal (some v) := by
  obtain ⟨K, K0, hw⟩ := winv_of hm h hd
  have key : i < (K0 d).rk ∧ (K0 d).V i ∧ (K0 d).A i := by
    rcases hi with hi | ⟨c, ⟨op, n, b, hr, hn, h1, h2⟩, hb⟩
    · obtain ⟨r, hr, -⟩ := hx
      have hl := hw.base d r hr
      exact ⟨Nat.lt_of_lt_of_le hi (Nat.le_trans hw.zrk hl.rk), hl.v i (hw.zero i hi).1, hl.a i (hw.zero i hi).2.1⟩
    · obtain ⟨b', hb', -, -, h3, h4⟩ := (hw.done hr).grow n hn
      injection hb' with hb'; subst hb'
      have hl := (hw.hb_le hb).2
      have h5 := h4 i h1 h2
      exact ⟨Nat.lt_of_lt_of_le h2 (Nat.le_trans h3 hl.rk), hl.v i h5.2.1, hl.a i h5.2.2.1⟩
  exact (hw.done hx).cloned i rfl key.1 key.2.1 key.2.2

example : Show.κ.Returned 7 (.getCloned 5) (.optVal (some 7)) ∧ ∃ v, (Ret.optVal (some 7) : Ret Nat Nat) = .optVal (some v) := by
  have hr : Show.κ.Returned 7 (.getCloned 5) (.optVal (some 7)) := Cfg.returned_of rfl rfl
  exact ⟨hr, C41_cloned_after_growth Show.init Show.reach Show.disciplined
    (.inr ⟨1, ⟨.push 7, 1, 5, Cfg.returned_of rfl rfl, rfl, by decide, by decide⟩, Cfg.hb_of (H := [1]) rfl (by decide)⟩) hr⟩

theorem Weak.filled {D : Mode} {mx : Nat} {K K0 : Cid → Know} {n k : Nat} {d : Cid} {r : Weak.Rec α β}
    (hw : WInv D mx n κ K K0) (hr : κ.calls d = some r) (hf : κ.FilledBefore n d k) :
    k ≤ (K0 d).rk ∧ ∀ i, i < k → (K0 d).V i ∧ (K0 d).A i := by
  have key : ∀ i, i < k → i < (K0 d).rk ∧ (K0 d).V i ∧ (K0 d).A i := by
    intro i hi
    rcases hf i hi with hi | ⟨c, ⟨op, n, b, hr, hn, h1, h2⟩, hb⟩
    · have hl := hw.base d r hr
      exact ⟨Nat.lt_of_lt_of_le hi (Nat.le_trans hw.zrk hl.rk), hl.v i (hw.zero i hi).1, hl.a i (hw.zero i hi).2.1⟩
    · obtain ⟨b', hb', -, -, h3, h4⟩ := (hw.done hr).grow n hn
      injection hb' with hb'; subst hb'
      have hl := (hw.hb_le hb).2
      have h5 := h4 i h1 h2
      exact ⟨Nat.lt_of_lt_of_le h2 (Nat.le_trans h3 hl.rk), hl.v i h5.2.1, hl.a i h5.2.2.1⟩
  refine ⟨?_, fun i hi => (key i hi).2⟩
  rcases Nat.eq_zero_or_pos k with hk | hk
  · omega
  · have := (key (k - 1) (by omega)).1; omega

/-- If nobody takes handles of elements, then `len` (and `iter`, `as_slice`) sees all elements which were added before,
`get` and `get_raw` find them. -/
theorem C41_len_sees_all (hm : InitMem m l) (h : Weak.Reach m κ) (hd : κ.Disciplined) (hl : κ.Only fun op => ¬ op.Locks)
    {d : Cid} {k : Nat} (hf : κ.FilledBefore l.length d k) :
    (∀ op x n, κ.Returned d op x → op.ReportsLen n x → k ≤ n) ∧
    (∀ i x, i < k → κ.Returned d (.get i) x → x = .elem (some i)) ∧
    (∀ o i x, i < k → κ.Returned d (.getRaw o i) x → x = .ptr (some i)) := by
  obtain ⟨K, K0, hw⟩ := winv_of_nolock hm h hd hl
  refine ⟨fun op x n hx hn => ?_, fun i x hi hx => ?_, fun o i x hi hx => ?_⟩
  · have h1 := ((hw.done hx).len n hn).2.2.2 trivial
    obtain ⟨r, hr, -⟩ := hx
    have h2 := filled hw hr hf
    exact h1 k h2.1 h2.2
  · rcases (hw.done hx).get i rfl with h3 | ⟨-, -, h3⟩
    · exact h3
    · obtain ⟨r, hr, -⟩ := hx
      have h2 := filled hw hr hf
      exact absurd (fun j hj => h2.2 j (by omega)) (h3 trivial (by omega))
  · have h3 := (hw.done hx).raw o i rfl trivial
    obtain ⟨r, hr, -⟩ := hx
    have h2 := filled hw hr hf
    exact h3 (by omega) (h2.2 i hi).1 (h2.2 i hi).2

example : Show.σ.FilledBefore 2 4 6 ∧ Show.σ.Returned 4 .len (.nat 6) ∧ 6 ≤ 6 := by
  have hf : Show.σ.FilledBefore 2 4 6 := by
    intro i hi
    have h1 : ∀ j, 2 ≤ j → j < 5 → Show.σ.Added 2 j := fun j h h' =>
      ⟨.extend (.ofList [1, 2, 3]), 3, 2, Cfg.returned_of rfl rfl, rfl, h, h'⟩
    have h2 : Show.σ.Added 1 5 := ⟨.push 7, 1, 5, Cfg.returned_of rfl rfl, rfl, by decide, by decide⟩
    have hb1 : Show.σ.HB 1 4 := Cfg.hb_of (H := [1, 2]) rfl (by decide)
    have hb2 : Show.σ.HB 2 4 := Cfg.hb_of (H := [1, 2]) rfl (by decide)
    rcases Nat.lt_or_ge i 2 with h | h
    · exact .inl h
    · rcases Nat.lt_or_ge i 5 with h' | h'
      · exact .inr ⟨2, h1 i h h', hb2⟩
      · have : i = 5 := by omega
        subst this
        exact .inr ⟨1, h2, hb1⟩
  have hr : Show.σ.Returned 4 .len (.nat 6) := Cfg.returned_of rfl rfl
  exact ⟨hf, hr, (C41_len_sees_all Show.init Show.σ_reach Show.σ_disciplined Show.σ_nolock hf).1 _ _ _ hr rfl⟩

/-- Without happens-before a stale `len` may miss elements. -/
example : Show.σ.Returned 3 .len (.nat 2) := Cfg.returned_of rfl rfl

end Verif
