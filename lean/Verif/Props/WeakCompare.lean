import Verif.Weak.CompareInv
import Verif.Proof.CompareLists
import Verif.Props.Compare
import Verif.Props.DemoWeakCompare

/-!
# C60: comparing vectors, slices and elements with each other under weak memory

The comparisons of C55 in the memory model of `Weak/Model.lean`.  The executions (`SysExec`) are those of any number of vectors which any
number of threads use and compare (`Weak/Compare.lean`).
-/

namespace Verif

variable {α β : Type} {m : Nat → Mem α} {l : Nat → List α} {S : Nat → Weak.Sys α β} {n : Nat}

/-- **C60.** Each of the vectors that are compared is used as in `Weak/Model.lean`: whatever is proved there about executions of one
vector applies to it. In particular nothing bad happens, neither a data race nor an access to memory that is not there. -/
theorem C60_each_vector (h : Weak.SysExec m n S) (hm : ∀ u, InitMem (m u) (l u)) (u : Nat) :
    Weak.Reach (m u) ((S n).vec u) ∧ (((S n).vec u).Disciplined → ((S n).vec u).bad = none) :=
  have hr := (h.inv (Nat.le_refl n)).reach u
  ⟨hr, C41_nothing_bad (hm u) hr⟩

/-- **C60.** If the comparison returns `b`, then it went through the elements of both operands pairwise, from the front. The two values of
a pair were in the vectors at the same moment of the comparison (later pairs at later moments). It returned `true` if all pairs were
equal and the operands have the same number of elements, and `false` if a pair differed (it stopped there) or one operand was exhausted
before the other. -/
theorem C60_result (h : Weak.SysExec m n S) (hm : ∀ u, InitMem (m u) (l u)) (hd : (S n).Disciplined) {k : Nat} {T : Weak.Cmp α β} {b : Bool}
    (hk : (S n).cmp k = some T) (hb : T.prog = .ret b) :
    ∃ es fs ps τ, (S n).Elements T .left es ∧ (S n).Elements T .right fs ∧ Weak.Compared S n k T es fs ps τ ∧
      Verdict es fs (T.results ps) b := by
  cases h.phase hm hd (Nat.le_refl n) k T hk with
  | ret es fs ps b' hH hv h =>
    rw [hb] at h
    cases h
    obtain ⟨τ, hτ, -⟩ := hH.cmp
    exact ⟨es, fs, ps, τ, hH.left, hH.right, hτ, hv⟩
  | locking es fs ps e f hH hv he hf h => cases h <;> rename_i h <;> rw [h] at hb <;> cases hb
  | judging es fs ps e f x y t hH hv he hf ht hp hd h => cases h <;> rename_i h <;> rw [h] at hb <;> cases hb
  | callL _ _ _ _ h => rw [h] at hb; cases hb
  | finL _ _ _ _ h => rw [h] at hb; cases hb
  | callR _ _ _ _ _ _ h => rw [h] at hb; cases hb
  | finR _ _ _ _ _ _ h => rw [h] at hb; cases hb
  | fail _ _ _ _ _ _ h => rw [h] at hb; cases hb

/-- **C60.** A comparison panics only if `T::eq` does: on the first pair that is not found equal. -/
theorem C60_panics (h : Weak.SysExec m n S) (hm : ∀ u, InitMem (m u) (l u)) (hd : (S n).Disciplined) {k : Nat} {T : Weak.Cmp α β}
    {pk : PanicKind} (hk : (S n).cmp k = some T) (hb : T.prog = .panic pk) :
    pk = .userCode ∧ ∃ es fs ps j τ, (S n).Elements T .left es ∧ (S n).Elements T .right fs ∧ Weak.Compared S n k T es fs ps τ ∧
      T.results ps = List.replicate j (some true) ++ [none] := by
  cases h.phase hm hd (Nat.le_refl n) k T hk with
  | fail es fs ps j hH hv h =>
    rw [hb] at h
    cases h
    obtain ⟨τ, hτ, -⟩ := hH.cmp
    exact ⟨rfl, es, fs, ps, j, τ, hH.left, hH.right, hτ, hv⟩
  | locking es fs ps e f hH hv he hf h => cases h <;> rename_i h <;> rw [h] at hb <;> cases hb
  | judging es fs ps e f x y t hH hv he hf ht hp hd h => cases h <;> rename_i h <;> rw [h] at hb <;> cases hb
  | callL _ _ _ _ h => rw [h] at hb; cases hb
  | finL _ _ _ _ h => rw [h] at hb; cases hb
  | callR _ _ _ _ _ _ h => rw [h] at hb; cases hb
  | finR _ _ _ _ _ _ h => rw [h] at hb; cases hb
  | ret _ _ _ _ _ _ h => rw [h] at hb; cases hb

/-- **C60.** The calls of a comparison on one side happen one after the other, and all of them after the calls after which the comparison
happens. -/
theorem C60_in_order (h : Weak.SysExec m n S) {k : Nat} {T : Weak.Cmp α β} (hk : (S n).cmp k = some T) (s : Side) {later earlier : List Cid}
    {c : Cid} (ho : T.own s = later ++ c :: earlier) : ∀ d, d ∈ T.hb s ∨ d ∈ earlier → ((S n).vec (T.vecOf s)).HB d c :=
  fun d hd => (h.inv (Nat.le_refl n)).after k T s hk later c earlier ho d (List.mem_append.2 hd)

/-- **C60.** A comparison with a vector takes all elements into account that were there at the beginning or that a call which happens before
the comparison has seen. -/
theorem C60_sees (h : Weak.SysExec m n S) (hm : ∀ u, InitMem (m u) (l u)) (hd : (S n).Disciplined) {k : Nat} {T : Weak.Cmp α β}
    (hk : (S n).cmp k = some T) {s : Side} (hs : T.arg s = .vec) {es : List Nat} (he : (S n).Elements T s es) :
    (l (T.vecOf s)).length ≤ es.length ∧
    ∀ c ∈ T.hb s, ∀ op x len, ((S n).vec (T.vecOf s)).Returned c op x → op.ReportsLen len x → len ≤ es.length := by
  have hI := h.inv (Nat.le_refl n)
  simp only [Weak.Sys.Elements, hs] at he
  obtain ⟨c, hc, hr⟩ := he
  obtain ⟨N, hN⟩ := (hI.reach _).iter_returned hr
  cases hN
  obtain ⟨later, earlier, ho⟩ := List.append_of_mem hc
  rw [List.length_range]
  refine ⟨?_, fun c' hc' op x len hr' hl => ?_⟩
  · obtain ⟨K, K0, hw⟩ := Weak.winv_of (hm _) (hI.reach _) (hd (T.vecOf s))
    have h1 := (hw.done hr).len N rfl
    obtain ⟨r, hr, -⟩ := hr
    exact Nat.le_trans (Nat.le_trans hw.zwn (hw.base c r hr).wn) h1.1
  · exact (C41_len_monotone (hm _) (hI.reach _) (hd _) (C60_in_order h hk s ho c' (.inl hc')) hr' hl hr rfl).2

/-- What the pairs of values say about lists of values. -/
theorem Weak.Compared.values {k : Nat} {T : Weak.Cmp α β} {es fs : List Nat} {ps : List (α × α)} {τ : Nat → Nat} {xs ys : List α}
    (hc : Weak.Compared S n k T es fs ps τ) (hx : ∀ (j : Nat) e x y, es[j]? = some e → ps[j]? = some (x, y) → xs[j]? = some x)
    (hy : ∀ (j : Nat) f x y, fs[j]? = some f → ps[j]? = some (x, y) → ys[j]? = some y) :
    ∀ (i : Nat) r, (T.results ps)[i]? = some r → ∃ x y, xs[i]? = some x ∧ ys[i]? = some y ∧ T.veq x y = r := by
  intro i r hr
  simp only [Weak.Cmp.results, List.getElem?_map, Option.map_eq_some_iff] at hr
  obtain ⟨⟨x, y⟩, hp, rfl⟩ := hr
  obtain ⟨-, e, f, he, hf, -⟩ := hc.pair i x y hp
  exact ⟨x, y, hx i e x y he hp, hy i f x y hf hp, rfl⟩

theorem Weak.Compared.steady {k : Nat} {T : Weak.Cmp α β} {es fs : List Nat} {ps : List (α × α)} {τ : Nat → Nat} {xs ys : List α}
    (hc : Weak.Compared S n k T es fs ps τ) (he : (S n).Elements T .left es) (hf : (S n).Elements T .right fs)
    (hx : Weak.Steady S n k T .left xs) (hy : Weak.Steady S n k T .right ys) :
    ∀ (i : Nat) r, (T.results ps)[i]? = some r → ∃ x y, xs[i]? = some x ∧ ys[i]? = some y ∧ T.veq x y = r := by
  refine hc.values (fun j e x y h1 h2 => ?_) (fun j f x y h1 h2 => ?_)
  · obtain ⟨ht, e', f', h3, -, ⟨h4, h5, -⟩, -⟩ := hc.pair j x y h2
    rw [h1] at h3
    cases h3
    have := (hx es he).2 _ ht h4 j e h1
    rw [← this]
    exact h5
  · obtain ⟨ht, e', f', -, h3, ⟨h4, -, h5⟩, -⟩ := hc.pair j x y h2
    rw [h1] at h3
    cases h3
    have := (hy fs hf).2 _ ht h4 j f h1
    rw [← this]
    exact h5

theorem Weak.Compared.unwritten (hm : ∀ u, InitMem (m u) (l u)) (hr : ∀ u, Weak.Reach (m u) ((S n).vec u)) (hd : (S n).Disciplined)
    {k : Nat} {T : Weak.Cmp α β} {es fs : List Nat} {ps : List (α × α)} {τ : Nat → Nat} {xs ys : List α}
    (hc : Weak.Compared S n k T es fs ps τ) (he : (S n).Elements T .left es) (hf : (S n).Elements T .right fs)
    (hx : Weak.Unwritten (S n) (l T.u) T .left xs) (hy : Weak.Unwritten (S n) (l T.v) T .right ys) :
    ∀ (i : Nat) r, (T.results ps)[i]? = some r → ∃ x y, xs[i]? = some x ∧ ys[i]? = some y ∧ T.veq x y = r := by
  have key : ∀ {s vs gs}, Weak.Unwritten (S n) (l (T.vecOf s)) T s vs → (S n).Elements T s gs → ∀ (j : Nat) g v, gs[j]? = some g →
      (S n).Found T s g v → vs[j]? = some v := by
    intro s vs gs hu hg j g v hj ⟨c, hc, hret⟩
    obtain ⟨hlen, hborn⟩ := hu gs hg
    have hlt : j < vs.length := hlen ▸ (List.getElem?_eq_some_iff.1 hj).1
    obtain ⟨h1, h2⟩ := hborn j g vs[j] hj (List.getElem?_eq_getElem hlt)
    rw [List.getElem?_eq_getElem hlt, (C47_unwritten (hm _) (hr _) (hd _) h1 h2).2.1 c v hret]
  refine hc.values (fun j e x y h1 h2 => ?_) (fun j f x y h1 h2 => ?_)
  · obtain ⟨-, e', f', h3, -, -, h5, -⟩ := hc.pair j x y h2
    rw [h1] at h3
    cases h3
    exact key hx he j e x h1 h5
  · obtain ⟨-, e', f', -, h3, -, -, h5⟩ := hc.pair j x y h2
    rw [h1] at h3
    cases h3
    exact key hy hf j f y h1 h5

/-- **C60.** If nobody changes the operands during the comparison, the result is that of comparing the two lists of values. -/
theorem C60_equal (h : Weak.SysExec m n S) (hm : ∀ u, InitMem (m u) (l u)) (hd : (S n).Disciplined) {k : Nat} {T : Weak.Cmp α β} {b : Bool}
    {xs ys : List α} (hk : (S n).cmp k = some T) (hb : T.prog = .ret b) (hx : Weak.Steady S n k T .left xs)
    (hy : Weak.Steady S n k T .right ys) : equalLists T.veq xs ys = some b := by
  obtain ⟨es, fs, ps, τ, h1, h2, h3, h4⟩ := C60_result h hm hd hk hb
  exact h4.equalLists (hx es h1).1 (hy fs h2).1 (h3.steady h1 h2 hx hy)

/-- **C60.** The same for panics: comparing the two lists of values panics, too. -/
theorem C60_equal_panics (h : Weak.SysExec m n S) (hm : ∀ u, InitMem (m u) (l u)) (hd : (S n).Disciplined) {k : Nat} {T : Weak.Cmp α β}
    {pk : PanicKind} {xs ys : List α} (hk : (S n).cmp k = some T) (hb : T.prog = .panic pk) (hx : Weak.Steady S n k T .left xs)
    (hy : Weak.Steady S n k T .right ys) : equalLists T.veq xs ys = none := by
  obtain ⟨-, es, fs, ps, j, τ, h1, h2, h3, h4⟩ := C60_panics h hm hd hk hb
  have := h3.steady h1 h2 hx hy
  rw [h4] at this
  exact equalLists_panics this

/-- **C60.** If nobody ever writes to the elements of the operands, the result is that of comparing the two lists of the values with which
they were created, no matter when. -/
theorem C60_unwritten (h : Weak.SysExec m n S) (hm : ∀ u, InitMem (m u) (l u)) (hd : (S n).Disciplined) {k : Nat} {T : Weak.Cmp α β}
    {xs ys : List α} (hk : (S n).cmp k = some T) (hx : Weak.Unwritten (S n) (l T.u) T .left xs) (hy : Weak.Unwritten (S n) (l T.v) T .right ys) :
    (∀ b, T.prog = .ret b → equalLists T.veq xs ys = some b) ∧ ∀ pk, T.prog = .panic pk → equalLists T.veq xs ys = none := by
  have hr := (h.inv (Nat.le_refl n)).reach
  refine ⟨fun b hb => ?_, fun pk hb => ?_⟩
  · obtain ⟨es, fs, ps, τ, h1, h2, h3, h4⟩ := C60_result h hm hd hk hb
    exact h4.equalLists (hx es h1).1 (hy fs h2).1 (h3.unwritten hm hr hd h1 h2 hx hy)
  · obtain ⟨-, es, fs, ps, j, τ, h1, h2, h3, h4⟩ := C60_panics h hm hd hk hb
    have := h3.unwritten hm hr hd h1 h2 hx hy
    rw [h4] at this
    exact equalLists_panics this

theorem Weak.Sys.Elements.ne_nil (h : Weak.SysExec m n S) (hm : ∀ u, InitMem (m u) (l u)) (hd : (S n).Disciplined) {k : Nat} {T : Weak.Cmp α β}
    (hk : (S n).cmp k = some T) {s : Side} {es : List Nat} (he : (S n).Elements T s es) (hh : (S n).HasElements (l (T.vecOf s)) T s) :
    es[0]? = some ((T.arg s).pos 0) := by
  cases ha : T.arg s with
  | vec =>
    have hsee := C60_sees h hm hd hk ha he
    have hpos : 0 < es.length := by
      simp only [Weak.Sys.HasElements, ha] at hh
      rcases hh with hh | ⟨c, hc, op, x, len, h1, h2, h3⟩
      · exact Nat.lt_of_lt_of_le (List.length_pos_iff.2 hh) hsee.1
      · exact Nat.lt_of_lt_of_le h3 (hsee.2 c hc op x len h1 h2)
    simp only [Weak.Sys.Elements, ha] at he
    obtain ⟨c, -, hr⟩ := he
    obtain ⟨N, hN⟩ := ((h.inv (Nat.le_refl n)).reach _).iter_returned hr
    cases hN
    rw [List.length_range] at hpos
    rw [List.getElem?_range hpos]
    rfl
  | slc t =>
    simp only [Weak.Sys.Elements, ha] at he
    simp only [Weak.Sys.HasElements, ha] at hh
    subst he
    simp [Slc.view, hh, Arg.pos]
  | el e =>
    simp only [Weak.Sys.Elements, ha] at he
    subst he
    rfl

/-- **C60.** A nonempty operand is compared with itself, or with another operand in the same vector that begins at the same position. The
comparison never ends: neither with a result nor with a panic. -/
theorem C60_self_hangs (h : Weak.SysExec m n S) (hm : ∀ u, InitMem (m u) (l u)) (hd : (S n).Disciplined) {k : Nat} {T : Weak.Cmp α β}
    (hk : (S n).cmp k = some T) (huv : T.u = T.v) (hpos : T.p.pos 0 = T.q.pos 0) (hl : (S n).HasElements (l T.u) T .left)
    (hr : (S n).HasElements (l T.v) T .right) : (S n).Comparing k := by
  have key : ∀ {es fs ps b}, Weak.Hist S n k T es fs ps b → 0 < ps.length → False := by
    intro es fs ps b hH hp
    have h1 := Weak.Sys.Elements.ne_nil h hm hd hk hH.left hl
    have h2 := Weak.Sys.Elements.ne_nil h hm hd hk hH.right hr
    refine hH.diff huv 0 _ hp h1 ?_
    rw [h2]
    exact congrArg some hpos.symm
  refine ⟨T, hk, fun b hb => ?_, fun pk hb => ?_⟩
  · cases h.phase hm hd (Nat.le_refl n) k T hk with
    | ret es fs ps b' hH hv h' =>
      refine key hH ?_
      have h1 := (List.getElem?_eq_some_iff.1 (Weak.Sys.Elements.ne_nil h hm hd hk hH.left hl)).1
      have h2 := (List.getElem?_eq_some_iff.1 (Weak.Sys.Elements.ne_nil h hm hd hk hH.right hr)).1
      have hlen : (T.results ps).length = ps.length := by simp [Weak.Cmp.results]
      rw [← hlen]
      generalize T.results ps = rs at hv
      cases hv with
      | equal _ => simpa using h1
      | differ j => simp
      | length _ => simp only [List.length_replicate]; omega
    | locking es fs ps e f hH hv he hf h => cases h <;> rename_i h <;> rw [h] at hb <;> cases hb
    | judging es fs ps e f x y t hH hv he hf ht hp hd h => cases h <;> rename_i h <;> rw [h] at hb <;> cases hb
    | callL _ _ _ _ h => rw [h] at hb; cases hb
    | finL _ _ _ _ h => rw [h] at hb; cases hb
    | callR _ _ _ _ _ _ h => rw [h] at hb; cases hb
    | finR _ _ _ _ _ _ h => rw [h] at hb; cases hb
    | fail _ _ _ _ _ _ h => rw [h] at hb; cases hb
  · cases h.phase hm hd (Nat.le_refl n) k T hk with
    | fail es fs ps j hH hv h' =>
      refine key hH ?_
      have hlen : (T.results ps).length = ps.length := by simp [Weak.Cmp.results]
      rw [← hlen, hv]
      simp
    | locking es fs ps e f hH hv he hf h => cases h <;> rename_i h <;> rw [h] at hb <;> cases hb
    | judging es fs ps e f x y t hH hv he hf ht hp hd h => cases h <;> rename_i h <;> rw [h] at hb <;> cases hb
    | callL _ _ _ _ h => rw [h] at hb; cases hb
    | finL _ _ _ _ h => rw [h] at hb; cases hb
    | callR _ _ _ _ _ _ h => rw [h] at hb; cases hb
    | finR _ _ _ _ _ _ h => rw [h] at hb; cases hb
    | ret _ _ _ _ _ _ h => rw [h] at hb; cases hb

section examples

open Verif.Demo (mems mems_init pairOf eqN)

namespace Weak.Show

/-- The comparison which thread `k` has made. -/
def theCmp (l : Nat → List Nat) (chs : List (SysChoice Nat Nat)) (k : Nat) : Cmp Nat Nat :=
  ((sysAfter l chs).cmp k).getD ⟨⟨0, 0, .vec, .vec, eqN, .ret false, fun _ => []⟩, fun _ => []⟩

/-- Among the calls `cs` only those of `iter` with result `es0` have returned elements. -/
def iterB (κ : Cfg Nat Nat) (cs : List Cid) (es0 : List Nat) : Bool :=
  cs.all fun c => match κ.calls c with
    | some ⟨.iter, _, _, _, .done (.elems es)⟩ => es == es0
    | _ => true

theorem elements_of {S : Sys Nat Nat} {T : Cmp Nat Nat} {s : Side} {es es0 : List Nat} (he : S.Elements T s es)
    (ha : T.arg s = .vec) (hb : iterB (S.vec (T.vecOf s)) (T.own s) es0 = true) : es = es0 := by
  simp only [Sys.Elements, ha] at he
  obtain ⟨c, hc, ⟨o, H, V, V', st⟩, h1, h2, h3⟩ := he
  simp only at h2 h3
  subst h2 h3
  have := List.all_eq_true.1 hb c hc
  rw [h1] at this
  simpa using this

/-- At every moment of the schedule the elements `es0` of vector `u` hold `vs`. -/
def keepsB (l : Nat → List Nat) (chs : List (SysChoice Nat Nat)) (u : Nat) (es0 vs : List Nat) : Bool :=
  es0.length == vs.length && (List.range (chs.length + 1)).all fun t => (List.range es0.length).all fun j =>
    ((sysAfter l (chs.take t)).vec u).mem.val (es0.getD j 0) == vs[j]?

theorem steady_of {l : Nat → List Nat} {chs : List (SysChoice Nat Nat)} {k : Nat} {T : Cmp Nat Nat} {s : Side} {es0 vs : List Nat}
    (he : ∀ es, (sysAfter l (chs.take chs.length)).Elements T s es → es = es0) (h : keepsB l chs (T.vecOf s) es0 vs = true) :
    Steady (fun t => sysAfter l (chs.take t)) chs.length k T s vs := by
  intro es hes
  obtain rfl := he es hes
  simp only [keepsB, Bool.and_eq_true, beq_iff_eq, List.all_eq_true, List.mem_range] at h
  refine ⟨h.1, fun t ht _ j e hj => ?_⟩
  obtain ⟨h1, h2⟩ := List.getElem?_eq_some_iff.1 hj
  have := h.2 t (by omega) j h1
  rw [List.getD_eq_getElem?_getD, hj] at this
  exact this

/-- All operations of the calls of vector `u` made so far. -/
theorem sys_only {l : Nat → List Nat} {chs : List (SysChoice Nat Nat)} (hp : SysPossible l chs) {u : Nat} {p : Op Nat Nat → Prop}
    (h : ∀ op ∈ ops ((sysAfter l chs).vec u), p op) : ((sysAfter l chs).vec u).Only p := by
  have := ((sysExec hp).inv (Nat.le_refl _)).reach u
  rw [List.take_length] at this
  exact only_of this h

theorem sys_disciplined {l : Nat → List Nat} {chs : List (SysChoice Nat Nat)} (hp : SysPossible l chs)
    (h0 : ∀ op ∈ ops ((sysAfter l chs).vec 0), ∀ e, op ≠ .deref e) (h1 : ∀ op ∈ ops ((sysAfter l chs).vec 1), ∀ e, op ≠ .deref e)
    (h2 : ∀ u, ops ((sysAfter l chs).vec (u + 2)) = []) : (sysAfter l (chs.take chs.length)).Disciplined := by
  rw [List.take_length]
  have key : ∀ u, ∀ op ∈ ops ((sysAfter l chs).vec u), ∀ e, op ≠ .deref e := by
    intro u
    match u with
    | 0 => exact h0
    | 1 => exact h1
    | u + 2 => rw [h2 u]; intro op hop; cases hop
  intro u c e hc
  exact absurd rfl (sys_only hp (p := fun op => ∀ e, op ≠ .deref e) (key u) c _ hc e)

/-- Thread 0 compares vector 0 with vector 1. -/
def cmpVecs (k : Nat) : List (SysChoice Nat Nat) := [.start 0 0 1 .vec .vec eqN fun _ => []] ++ sgo 0 k

/-- A thread pushes 20 to vector 1. -/
def pushed : List (SysChoice Nat Nat) := [.vec 1 (.call (.push 20) [])] ++ List.replicate 10 (.vec 1 (.go 1))

/-- Then vectors 0 and 1 are compared, after the push. -/
def cmpAfter : List (SysChoice Nat Nat) :=
  pushed ++ [.start 0 0 1 .vec .vec eqN fun s => match s with | .left => [] | .right => [1]] ++ sgo 0 23

/-- The same, but the comparison does not happen after the push: it reads an outdated number of initialised elements. -/
def cmpStale : List (SysChoice Nat Nat) := pushed ++ [.start 0 0 1 .vec .vec eqN fun _ => []] ++ sgo 0 8 ++ [.at 0 0] ++ sgo 0 13

/-- Thread 0 compares vector 0 with itself. -/
def cmpSelf : List (SysChoice Nat Nat) := [.start 0 0 0 .vec .vec eqN fun _ => []] ++ sgo 0 16

theorem pair_le {xs ys : List Nat} (hx : xs.length ≤ 8) (hy : ys.length ≤ 8) (u : Nat) : (pairOf xs ys u).length ≤ 8 := by
  unfold pairOf; split <;> assumption

end Weak.Show

open Weak.Show

/-- `[10, 20] == [10, 20]` for two vectors: the hypotheses of `C60_result`, `C60_sees` and `C60_equal` hold, the result is `true`. -/
example : ∃ (S : Nat → Weak.Sys Nat Nat) (n : Nat) (T : Weak.Cmp Nat Nat),
    Weak.SysExec (mems (pairOf [10, 20] [10, 20])) n S ∧ (∀ u, InitMem (mems (pairOf [10, 20] [10, 20]) u) (pairOf [10, 20] [10, 20] u)) ∧
    (S n).Disciplined ∧ (S n).cmp 0 = some T ∧ T.prog = .ret true ∧ (S n).Elements T .left [0, 1] ∧
    Weak.Steady S n 0 T .left [10, 20] ∧ Weak.Steady S n 0 T .right [10, 20] := by
  have hp : SysPossible (pairOf [10, 20] [10, 20]) (cmpVecs 32) := by unfold SysPossible; rfl
  refine ⟨_, _, theCmp (pairOf [10, 20] [10, 20]) (cmpVecs 32) 0, sysExec hp, mems_init (pair_le (by decide) (by decide)),
    sys_disciplined hp ?_ ?_ (fun u => rfl), rfl, rfl, ⟨1, ?_, Weak.Cfg.returned_of rfl rfl⟩,
    steady_of (es0 := [0, 1]) (fun es he => elements_of he rfl rfl) rfl, steady_of (es0 := [0, 1]) (fun es he => elements_of he rfl rfl) rfl⟩
  · intro op hop e
    change op ∈ [.iter, .elCloned 0, .elCloned 1] at hop
    rintro rfl
    simp at hop
  · intro op hop e
    change op ∈ [.iter, .elCloned 0, .elCloned 1] at hop
    rintro rfl
    simp at hop
  · show 1 ∈ [3, 2, 1]
    decide

/-- `T::eq` panics on the second pair: the hypotheses of `C60_panics` and `C60_equal_panics` hold. -/
example : ∃ (S : Nat → Weak.Sys Nat Nat) (n : Nat) (T : Weak.Cmp Nat Nat),
    Weak.SysExec (mems (pairOf [10, 99] [10, 20])) n S ∧ (∀ u, InitMem (mems (pairOf [10, 99] [10, 20]) u) (pairOf [10, 99] [10, 20] u)) ∧
    (S n).Disciplined ∧ (S n).cmp 0 = some T ∧ T.prog = .panic .userCode ∧
    Weak.Steady S n 0 T .left [10, 99] ∧ Weak.Steady S n 0 T .right [10, 20] := by
  have hp : SysPossible (pairOf [10, 99] [10, 20]) (cmpVecs 32) := by unfold SysPossible; rfl
  refine ⟨_, _, theCmp (pairOf [10, 99] [10, 20]) (cmpVecs 32) 0, sysExec hp, mems_init (pair_le (by decide) (by decide)),
    sys_disciplined hp ?_ ?_ (fun u => rfl), rfl, rfl,
    steady_of (es0 := [0, 1]) (fun es he => elements_of he rfl rfl) rfl, steady_of (es0 := [0, 1]) (fun es he => elements_of he rfl rfl) rfl⟩
  · intro op hop e
    change op ∈ [.iter, .elCloned 0, .elCloned 1] at hop
    rintro rfl
    simp at hop
  · intro op hop e
    change op ∈ [.iter, .elCloned 0, .elCloned 1] at hop
    rintro rfl
    simp at hop

/-- `[10] == [10, 20]`, where 20 was pushed before: the hypotheses of `C60_unwritten` and `C60_in_order` hold, the result is `false`. -/
example : ∃ (S : Nat → Weak.Sys Nat Nat) (n : Nat) (T : Weak.Cmp Nat Nat),
    Weak.SysExec (mems (pairOf [10] [10])) n S ∧ (∀ u, InitMem (mems (pairOf [10] [10]) u) (pairOf [10] [10] u)) ∧
    (S n).Disciplined ∧ (S n).cmp 0 = some T ∧ T.prog = .ret false ∧ T.own .right = [3] ++ 2 :: [] ∧ 1 ∈ T.hb .right ∧
    Weak.Unwritten (S n) (pairOf [10] [10] T.u) T .left [10] ∧ Weak.Unwritten (S n) (pairOf [10] [10] T.v) T .right [10, 20] := by
  have hp : SysPossible (pairOf [10] [10]) cmpAfter := by unfold SysPossible; rfl
  refine ⟨_, _, theCmp (pairOf [10] [10]) cmpAfter 0, sysExec hp, mems_init (pair_le (by decide) (by decide)),
    sys_disciplined hp ?_ ?_ (fun u => rfl), rfl, rfl, rfl, ?_, ?_, ?_⟩
  · intro op hop e
    change op ∈ [.iter, .elCloned 0] at hop
    rintro rfl
    simp at hop
  · intro op hop e
    change op ∈ [.push 20, .iter, .elCloned 0] at hop
    rintro rfl
    simp at hop
  · show 1 ∈ [1]
    decide
  · intro es he
    obtain rfl : es = [0] := elements_of he rfl rfl
    refine ⟨rfl, fun j e v h1 h2 => ?_⟩
    match j with
    | 0 =>
      cases h1
      cases h2
      refine ⟨.inl rfl, sys_only hp fun op hop => ?_⟩
      change op ∈ [.iter, .elCloned 0] at hop
      simp only [List.mem_cons, List.not_mem_nil, or_false] at hop
      rcases hop with rfl | rfl <;> exact id
    | j + 1 => cases h1
  · intro es he
    obtain rfl : es = [0, 1] := elements_of he rfl rfl
    have ho : ∀ e, ((sysAfter (pairOf [10] [10]) cmpAfter).vec 1).Only fun op => ¬ op.MayWrite e := by
      refine fun e => sys_only hp fun op hop => ?_
      change op ∈ [.push 20, .iter, .elCloned 0] at hop
      simp only [List.mem_cons, List.not_mem_nil, or_false] at hop
      rcases hop with rfl | rfl | rfl <;> exact id
    refine ⟨rfl, fun j e v h1 h2 => ?_⟩
    match j with
    | 0 => cases h1; cases h2; exact ⟨.inl rfl, ho _⟩
    | 1 =>
      cases h1
      cases h2
      exact ⟨.inr ⟨1, .push 20, 1, [20], Weak.Cfg.returned_of rfl rfl, rfl, Nat.le_refl _, rfl⟩, ho _⟩
    | j + 2 => cases h1

/-- `vec == vec` for the vector `[10, 20]`: the hypotheses of `C60_self_hangs` hold (the comparison has the handle of the first element and waits for it). -/
example : ∃ (S : Nat → Weak.Sys Nat Nat) (n : Nat) (T : Weak.Cmp Nat Nat),
    Weak.SysExec (mems (pairOf [10, 20] [])) n S ∧ (S n).Disciplined ∧ (S n).cmp 0 = some T ∧ T.u = T.v ∧ T.p.pos 0 = T.q.pos 0 ∧
    (S n).HasElements (pairOf [10, 20] [] T.u) T .left ∧ (S n).HasElements (pairOf [10, 20] [] T.v) T .right := by
  have hp : SysPossible (pairOf [10, 20] []) cmpSelf := by unfold SysPossible; rfl
  refine ⟨_, _, theCmp (pairOf [10, 20] []) cmpSelf 0, sysExec hp,
    sys_disciplined hp ?_ ?_ (fun u => rfl), rfl, rfl, rfl, .inl (List.cons_ne_nil _ _), .inl (List.cons_ne_nil _ _)⟩
  · intro op hop e
    change op ∈ [.iter, .iter, .elCloned 0, .elCloned 0] at hop
    rintro rfl
    simp at hop
  · intro op hop e
    cases hop

end examples

/-- A comparison that does not happen after a `push` may miss it, although the `push` has returned (`C60_sees` says what it cannot miss):
`[10] == [10, 20]` returns `true`. -/
theorem C60_stale : ∃ (m : Nat → Mem Nat) (l : Nat → List Nat) (S : Nat → Weak.Sys Nat Nat) (n t : Nat) (T : Weak.Cmp Nat Nat),
    (∀ u, InitMem (m u) (l u)) ∧ l 0 = [10] ∧ l 1 = [10] ∧ Weak.SysExec m n S ∧ t < n ∧ (S t).cmp 0 = none ∧
    (∃ c, ((S t).vec 1).Returned c (.push 20) (.nat 1)) ∧ (S n).cmp 0 = some T ∧ T.u = 0 ∧ T.v = 1 ∧ T.p = .vec ∧ T.q = .vec ∧
    T.veq = Demo.eqN ∧ T.prog = .ret true := by
  have hp : Weak.Show.SysPossible (Demo.pairOf [10] [10]) Weak.Show.cmpStale := by unfold Weak.Show.SysPossible; rfl
  exact ⟨_, Demo.pairOf [10] [10], _, _, 11, Weak.Show.theCmp (Demo.pairOf [10] [10]) Weak.Show.cmpStale 0,
    Demo.mems_init (Weak.Show.pair_le (by decide) (by decide)), rfl, rfl, Weak.Show.sysExec hp, by decide, rfl,
    ⟨1, Weak.Cfg.returned_of rfl rfl⟩, rfl, rfl, rfl, rfl, rfl, rfl, rfl⟩

end Verif
