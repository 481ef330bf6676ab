import Verif.Proof.SoloOps

/-!
# Every API function alone

Helper file (no property statements).
-/

namespace Verif

variable {α β ρ ρ' : Type}

open Prog

section

variable {m : Mem α} {l : List α} {r : Nat}

/-- The slice lies within the first `n` positions. -/
def Slc.Within (s : Slc) (n : Nat) : Prop := ∀ i ∈ positions s.a s.len, i < n

theorem Slc.Within.le {s : Slc} {n : Nat} (h : s.Within n) (h0 : s.len ≠ 0) : s.a + s.len ≤ n := by
  have := h (s.a + (s.len - 1)) (by simp [positions]; omega)
  omega

theorem Slc.Within.lt {s : Slc} {n : Nat} (h : s.Within n) {i : Nat} (hi : i < s.len) : s.a + i < n := by
  have := h.le (by omega)
  omega

theorem of_length {s : Slc} (h : s.Within l.length) : (s.of l).length = s.len := by
  by_cases h0 : s.len = 0
  · simp [Slc.of, h0]
  · have := h.le h0
    simp [Slc.of]; omega

theorem of_getElem? (s : Slc) (l : List α) (i : Nat) : (s.of l)[i]? = if i < s.len then l[s.a + i]? else none := by
  rw [Slc.of, List.getElem?_take, List.getElem?_drop]

theorem put_of (s : Slc) (l : List α) : s.put l (s.of l) = l := by
  unfold Slc.put Slc.of
  rw [← List.drop_drop, List.append_assoc, List.take_append_drop, List.take_append_drop]

theorem Mem.Half.vals_slice (h : m.Half l r) {s : Slc} (hs : s.Within l.length) : m.Vals s.iter (s.of l) := by
  by_cases h0 : s.len = 0
  · simp [Slc.iter, positions, Slc.of, h0, Mem.Vals]
  · exact h.vals s.len s.a (hs.le h0)

theorem view_length (s : Slc) : s.view.length = s.len := by simp [Slc.view]

theorem view_getElem? (s : Slc) (i : Nat) : s.view[i]? = if i < s.len then some (s.a + i) else none := by
  rw [view_eq]
  by_cases hi : i < s.len
  · rw [if_pos hi, List.getElem?_eq_getElem (by simpa using hi)]; simp
  · rw [if_neg hi, List.getElem?_eq_none (by simpa using hi)]

theorem solo_slGet (h : m.Half l r) {s : Slc} (hs : s.Within l.length) (i : Nat) :
    (s.get i : Prog α (Option Nat)).solo m = (.done (.ok s.view[i]?), m) := by
  unfold Slc.get
  rw [view_getElem?]
  by_cases hi : i < s.len
  · rw [if_pos hi, if_pos hi, solo_colGet, if_pos]
    have := hs.lt hi; have := h.cap; omega
  · rw [if_neg hi, if_neg hi]; rfl

theorem solo_slIndex (h : m.Half l r) {s : Slc} (hs : s.Within l.length) (i : Nat) :
    (s.index i : Prog α Nat).solo m = (.done (match s.view[i]? with | some p => .ok p | none => .error .outOfBounds), m) := by
  unfold Slc.index
  rw [bind_eq, solo_bind (solo_slGet h hs i)]
  cases s.view[i]? <;> rfl

theorem solo_slGetCloned (h : m.Half l r) {s : Slc} (hs : s.Within l.length) (i : Nat) :
    (s.getCloned i).solo m = (.done (.ok (s.of l)[i]?), m) := by
  unfold Slc.getCloned
  rw [of_getElem?]
  by_cases hi : i < s.len
  · have hlt := hs.lt hi
    have h1 := solo_colGet (m := m) (s.a + i)
    rw [if_pos (by have := h.cap; omega)] at h1
    rw [if_pos hi, if_pos hi, bind_eq, solo_bind h1]
    simp only
    rw [bind_eq, solo_bind (solo_cloned (h.at (List.getElem?_eq_getElem hlt))), List.getElem?_eq_getElem hlt]
    rfl
  · rw [if_neg hi, if_neg hi]; rfl

theorem chunkLoop_solo (h : m.Rep l) (n k : Nat) : ∀ is : List Nat,
    (CVec.chunkLoop n k is : Prog α (List Slc)).solo (m.mark l.length) =
      (.done (.ok (is.map fun i => (⟨0, l.length⟩ : Slc).slice (chunkRange n k i))), m.mark l.length) := by
  intro is
  induction is with
  | nil => rfl
  | cons i is ih =>
    unfold CVec.chunkLoop
    rw [bind_eq, solo_bind (solo_slice (h.mark (Nat.le_refl _)) _), mark_mark, bind_eq, solo_bind ih]
    rfl

theorem ends_slFillWith (h : m.Rep l) {s : Slc} (hs : s.Within l.length) (f : Nat → Option α) :
    Ends (s.fillWith f) m (s.put l (filled f 0 (s.of l)))
      (if ∀ i, i < s.len → (f i).isSome then .ok () else .error .userCode) := by
  by_cases h0 : s.len = 0
  · refine .same (l := s.put l _) ?_ ?_
    · have : s.of l = [] := by simp [Slc.of, h0]
      have h2 := put_of s l
      rw [this] at h2 ⊢
      rw [filled, h2]; exact h
    · simp [Slc.fillWith, Slc.iter, positions, h0, Loop.fillWith, Prog.solo]
  · have := ends_fillWith f (j := 0) h (hs.le h0)
    simp only [Nat.zero_add] at this
    exact this

theorem ends_slFill (h : m.Rep l) {s : Slc} (hs : s.Within l.length) (v : α) :
    Ends (s.fill v) m (s.put l (List.replicate s.len v)) (.ok ()) := by
  have := ends_slFillWith h hs (fun _ => some v)
  rw [filled_const, of_length hs] at this
  simp only [Option.isSome_some, implies_true, if_true] at this
  unfold Slc.fill
  rw [loop_fill_eq v _ 0]
  exact this

theorem put_set {s : Slc} (hs : s.Within l.length) {xs : List α} (hx : xs.length = s.len) {i : Nat} (hi : i < s.len) (b : α) :
    s.put l (xs.set i b) = (s.put l xs).set (s.a + i) b := by
  have h1 := hs.lt hi
  have e3 : (l.take s.a).length = s.a := by simp; omega
  unfold Slc.put
  rw [List.set_append_left _ _ (by simp only [List.length_append, e3, hx]; omega),
    List.set_append_right _ _ (by rw [e3]; omega), e3, Nat.add_sub_cancel_left]

theorem put_swapAt {s : Slc} (hs : s.Within l.length) {i j : Nat} (hi : i < s.len) (hj : j < s.len) :
    s.put l (swapAt (s.of l) i j) = swapAt l (s.a + i) (s.a + j) := by
  have h1 := hs.lt hi
  have h2 := hs.lt hj
  have e1 : (s.of l)[i]? = some l[s.a + i] := by rw [of_getElem?, if_pos hi, List.getElem?_eq_getElem h1]
  have e2 : (s.of l)[j]? = some l[s.a + j] := by rw [of_getElem?, if_pos hj, List.getElem?_eq_getElem h2]
  rw [swapAt_eq e1 e2, swapAt_eq (List.getElem?_eq_getElem h1) (List.getElem?_eq_getElem h2)]
  rw [put_set hs (by simp [of_length hs]) hj, put_set hs (of_length hs) hi, put_of]

theorem ends_slSwap (mode : MutMode) (h : m.Rep l) {s : Slc} (hs : s.Within l.length) {i j : Nat}
    (hne : i < s.len → i ≠ j) :
    Ends (s.swap mode i j) m (s.put l (swapAt (s.of l) i j)) (.ok (decide (i < s.len ∧ j < s.len))) := by
  unfold Slc.swap Slc.idx
  by_cases hi : i < s.len
  · by_cases hj : j < s.len
    · simp only [if_pos hi, if_pos hj]
      rw [put_swapAt hs hi hj]
      have := ends_swap mode h (i := s.a + i) (j := s.a + j) (fun _ => by have := hne hi; omega)
      rw [decide_eq_true ⟨hs.lt hi, hs.lt hj⟩] at this
      rwa [decide_eq_true ⟨hi, hj⟩]
    · simp only [if_pos hi, if_neg hj]
      rw [swapAt_none (by rw [of_length hs]; omega), put_of]
      exact .same h (by simp [Prog.solo, hj])
  · simp only [if_neg hi]
    rw [swapAt_none (by rw [of_length hs]; omega), put_of]
    exact .same h (by simp [Prog.solo, hi])

theorem slice_co {s : Slc} {a b : Nat} (hab : a ≤ b) (hb : b ≤ s.len) : s.slice (.co a b) = ⟨s.a + a, b - a⟩ := by
  simp [Slc.slice, Rng.co, rangeLimits, Nat.min_eq_left hb, Nat.min_eq_left hab]

theorem slice_from {s : Slc} {a : Nat} (hb : a ≤ s.len) : s.slice (.from a) = ⟨s.a + a, s.len - a⟩ := by
  simp [Slc.slice, Rng.from, rangeLimits, Nat.min_eq_left hb]

theorem view_take {s : Slc} {k : Nat} (hk : k ≤ s.len) : (⟨s.a, k⟩ : Slc).view = s.view.take k := by
  apply List.ext_getElem?
  intro i
  rw [view_getElem?, List.getElem?_take, view_getElem?]
  by_cases hi : i < k
  · rw [if_pos hi, if_pos hi, if_pos (by omega)]
  · rw [if_neg hi, if_neg hi]

theorem view_drop (s : Slc) (k : Nat) : (⟨s.a + k, s.len - k⟩ : Slc).view = s.view.drop k := by
  rw [view_eq, view_eq]
  simp [List.drop_range']

theorem view_cons {s : Slc} (h : s.len ≠ 0) : s.view = s.a :: (⟨s.a + 1, s.len - 1⟩ : Slc).view := by
  rw [view_drop s 1, List.drop_one]
  have : s.view[0]? = some s.a := by rw [view_getElem?, if_pos (by omega)]; rfl
  cases hv : s.view with
  | nil => rw [hv] at this; cases this
  | cons x xs => rw [hv] at this; simp at this; simp [this]

theorem view_concat {s : Slc} (h : s.len ≠ 0) : s.view = (⟨s.a, s.len - 1⟩ : Slc).view ++ [s.a + (s.len - 1)] := by
  apply List.ext_getElem?
  intro i
  rw [view_getElem?]
  by_cases hi : i < s.len - 1
  · rw [if_pos (by omega), List.getElem?_append_left (by simpa [Slc.view] using hi), view_getElem?, if_pos hi]
  · rw [List.getElem?_append_right (by simp [Slc.view]; omega)]
    simp only [view_length]
    by_cases h2 : i = s.len - 1
    · subst h2
      rw [if_pos (by omega)]; simp
    · rw [if_neg (by omega), List.getElem?_eq_none (by simp; omega)]

/-- A function that first takes the length and then only looks. -/
theorem Ends.via_iter (h : m.Rep l) {f : List Nat → Prog α ρ} {x : Except PanicKind ρ}
    (hf : (f (List.range' 0 l.length)).solo (m.mark l.length) = (.done x, m.mark l.length)) :
    Ends (CVec.iter >>= f) m l x :=
  .marked h (by rw [bind_eq, solo_bind (solo_iter h)]; exact hf)

theorem Ends.via_slice (h : m.Rep l) {f : Slc → Prog α ρ} {x : Except PanicKind ρ}
    (hf : (f ⟨0, l.length⟩).solo (m.mark l.length) = (.done x, m.mark l.length)) :
    Ends (CVec.asSlice >>= f) m l x :=
  .marked h (by rw [bind_eq, solo_bind (solo_asSlice h)]; exact hf)

theorem findIdx?_any (veq : α → α → Bool) (t : α) (vs : List α) :
    (vs.findIdx? fun v => veq v t).isSome = vs.any fun v => veq v t := by
  rw [Bool.eq_iff_iff, List.findIdx?_isSome]

theorem range_eq (n : Nat) : List.range' 0 n = List.range n := (List.range_eq_range' (n := n)).symm

theorem map_zero_add (o : Option Nat) : o.map (0 + ·) = o := by
  cases o <;> simp

theorem list_isEmpty (l : List α) : (l.length == 0) = l.isEmpty := by cases l <;> rfl

theorem op_ends (h : m.Rep l) (op : Op α β) (hf : op.Fits l m.maxCap) (hn : ∀ i ∈ op.needs, i < l.length)
    (hp : ∀ i ∈ op.needsPtr, i < l.length) : ∃ x, Ends op.prog m (op.next l) x ∧ op.Gives l x := by
  have hM : (m.mark l.length).Rep l := h.mark (Nat.le_refl _)
  cases op with
  | push v => exact ⟨_, (ends_push h hf v).map _, rfl⟩
  | pushForIdx f =>
    obtain ⟨v, hv⟩ := Option.isSome_iff_exists.1 hf.2
    have := (ends_pushForIdx h hf.1 hv).map (Ret.nat (α := α) (β := β))
    exact ⟨_, by rw [Op.next, hv]; exact this, rfl⟩
  | extend it => exact ⟨_, (ends_extendN h hf.1 hf.2).map _, rfl⟩
  | extendN items n => exact ⟨_, (ends_extendN h hf.1 hf.2).map _, rfl⟩
  | extendForIdx f n =>
    obtain ⟨h1, it, h2, h3, h4⟩ := hf
    have := (ends_extendForIdx h h1 h2 h3 h4).map (Ret.nat (α := α) (β := β))
    exact ⟨_, by simp only [Op.next, h2]; exact this, rfl⟩
  | len => exact ⟨_, (Ends.marked h (solo_len h)).map _, rfl⟩
  | isEmpty =>
    refine ⟨_, (Ends.marked h (x := .ok l.isEmpty) ?_).map _, rfl⟩
    unfold CVec.isEmpty
    rw [bind_eq, solo_bind (solo_len h), ← list_isEmpty]; rfl
  | capacity => exact ⟨_, (Ends.same h (x := .ok m.cap) rfl).map _, _, rfl, h.cap⟩
  | maximumCapacity =>
    exact ⟨_, (Ends.same h (x := .ok m.maxCap) rfl).map _, _, rfl, Nat.le_trans h.cap (m.pol.good_le h.good)⟩
  | get i => exact ⟨_, (Ends.marked h (solo_get h i)).map _, rfl⟩
  | index i => exact ⟨_, (Ends.marked h (solo_index h i)).map _, by rw [map_ite]; rfl⟩
  | getCloned i => exact ⟨_, (Ends.same h (solo_getCloned h i)).map _, rfl⟩
  | iter => exact ⟨_, (Ends.marked h (solo_iter h)).map _, by rw [range_eq]; rfl⟩
  | iterCloned => exact ⟨_, (Ends.via_iter h (solo_loop_cloned hM.vals_all)).map _, rfl⟩
  | map f => exact ⟨_, (Ends.via_iter h (solo_loop_map hM.vals_all f)).map _, by rw [map_closure]; rfl⟩
  | filter f =>
    refine ⟨_, (Ends.via_iter h (solo_loop_filter hM.vals_all f)).map _, ?_⟩
    rw [map_ite, range_eq]; rfl
  | fold f init => exact ⟨_, (Ends.via_iter h (solo_loop_fold hM.vals_all f init)).map _, by rw [map_closure]; rfl⟩
  | visit f init => exact ⟨_, (Ends.via_iter h (solo_loop_visit hM.vals_all f init)).map _, by rw [map_closure]; rfl⟩
  | reduce f => exact ⟨_, (Ends.via_slice h (solo_loop_reduce hM.vals_all f)).map _, by rw [map_closure]; rfl⟩
  | indexOf veq v =>
    refine ⟨_, (Ends.via_iter h (solo_loop_position hM.vals_all veq v 0)).map _, ?_⟩
    rw [map_zero_add]; rfl
  | contains veq v =>
    have h1 : (CVec.indexOf veq v : Prog α (Option Nat)).solo m = (.done (.ok (l.findIdx? fun x => veq x v)), m.mark l.length) := by
      unfold CVec.indexOf
      rw [bind_eq, solo_bind (solo_iter h), solo_loop_position hM.vals_all veq v 0, map_zero_add]
    refine ⟨_, (Ends.marked h (x := .ok (l.any fun x => veq x v)) ?_).map _, rfl⟩
    unfold CVec.contains
    rw [bind_eq, solo_bind h1, ← findIdx?_any]; rfl
  | cloneToVec => exact ⟨_, (Ends.via_slice h (x := .ok l) (solo_loop_cloned hM.vals_all)).map _, rfl⟩
  | eqList veq vs => exact ⟨_, (Ends.via_iter h (solo_loop_eqList hM.vals_all veq vs)).map _, by rw [map_closure]; rfl⟩
  | debug sh => exact ⟨_, (Ends.via_iter h (solo_debug hM.vals_all sh)).map _, rfl⟩
  | slice r => exact ⟨_, (Ends.marked h (solo_slice h r)).map _, _, rfl, by rw [view_slice, view_range]⟩
  | asSlice => exact ⟨_, (Ends.marked h (solo_asSlice h)).map _, _, rfl, view_range _⟩
  | splitAt mid =>
    by_cases hmid : mid ≤ l.length
    · refine ⟨_, (Ends.marked h (x := .ok (⟨0, mid⟩, ⟨0 + mid, l.length - mid⟩)) ?_).map _, ?_⟩
      · unfold CVec.splitAt
        rw [bind_eq, solo_bind (solo_len h)]
        simp only [if_pos hmid]
        rw [bind_eq, solo_bind (solo_slice hM _), mark_mark, bind_eq, solo_bind (solo_slice hM _), mark_mark,
          slice_co (Nat.zero_le _) hmid, slice_from hmid]
        rfl
      · simp only [Op.Gives, if_pos hmid]
        refine ⟨_, _, rfl, ?_, ?_⟩
        · rw [← view_range]; exact view_take (s := ⟨0, l.length⟩) hmid
        · rw [← view_range]; exact view_drop ⟨0, l.length⟩ mid
    · refine ⟨_, (Ends.marked h (x := .error .splitMid) ?_).map _, ?_⟩
      · unfold CVec.splitAt
        rw [bind_eq, solo_bind (solo_len h)]
        simp only [if_neg hmid]
        rfl
      · simp only [Op.Gives, if_neg hmid]; rfl
  | splitFirst =>
    by_cases h0 : l.length = 0
    · refine ⟨_, (Ends.marked h (x := .ok none) ?_).map _, _, rfl, List.length_eq_zero_iff.1 h0⟩
      have h1 := solo_get h 0
      rw [List.getElem?_eq_none (by simp [h0])] at h1
      unfold CVec.splitFirst
      rw [bind_eq, solo_bind h1]; rfl
    · refine ⟨_, (Ends.marked h (x := .ok (some (0, ⟨0 + 1, l.length - 1⟩))) ?_).map _, _, rfl, ?_⟩
      · have h1 := solo_get h 0
        rw [List.getElem?_range (by omega)] at h1
        unfold CVec.splitFirst
        rw [bind_eq, solo_bind h1]
        simp only
        rw [bind_eq, solo_bind (solo_len hM), mark_mark, bind_eq, solo_bind (solo_slice hM _), mark_mark,
          slice_co (by simp only; omega) (Nat.le_refl _)]
        rfl
      · have := view_cons (s := ⟨0, l.length⟩) h0
        rwa [view_range] at this
  | splitLast =>
    by_cases h0 : l.length = 0
    · refine ⟨_, (Ends.marked h (x := .ok none) ?_).map _, _, rfl, List.length_eq_zero_iff.1 h0⟩
      unfold CVec.splitLast
      rw [bind_eq, solo_bind (solo_len h)]
      simp only [if_pos h0]; rfl
    · refine ⟨_, (Ends.marked h (x := .ok (some (l.length - 1, ⟨0, l.length - 1⟩))) ?_).map _, _, rfl, ?_⟩
      · have h1 := solo_index hM (l.length - 1)
        rw [if_pos (by omega), mark_mark] at h1
        unfold CVec.splitLast
        rw [bind_eq, solo_bind (solo_len h)]
        simp only [if_neg h0]
        rw [bind_eq, solo_bind (solo_slice hM _), mark_mark, bind_eq, solo_bind h1,
          slice_co (by omega) (by simp only; omega)]
        rfl
      · have := view_concat (s := ⟨0, l.length⟩) h0
        rw [view_range, Nat.zero_add] at this
        exact this
  | chunks k =>
    by_cases hk : 0 < k
    · refine ⟨_, (Ends.marked h (x := .ok ((List.range (numChunks l.length k)).map fun i =>
        (⟨0, l.length⟩ : Slc).slice (chunkRange l.length k i))) ?_).map _, ?_⟩
      · unfold CVec.chunks
        rw [if_pos hk, bind_eq, solo_bind (solo_len h), chunkLoop_solo h]
      · simp only [Op.Gives, if_pos hk]
        refine ⟨_, rfl, ?_⟩
        have := chunked ⟨0, l.length⟩ hk
        rwa [view_range] at this
    · refine ⟨_, (Ends.same h (x := .error .chunkZero) ?_).map _, ?_⟩
      · unfold CVec.chunks
        rw [if_neg hk]; rfl
      · simp only [Op.Gives, if_neg hk]; rfl
  | getRaw o i => exact ⟨_, (Ends.same h (solo_getRaw h o i)).map _, rfl⟩
  | iterRef o =>
    refine ⟨_, (Ends.same h (x := .ok (List.range' 0 l.length)) ?_).map _, by rw [range_eq]; rfl⟩
    unfold CVec.iterRef
    rw [bind_eq, solo_bind (solo_reservedLen h), solo_rawRefs h.vals_all]
  | swap mode i j => exact ⟨_, (ends_swap mode h hf).map _, rfl⟩
  | fill v =>
    have := ends_slFill hM (s := ⟨0, l.length⟩) (fun i hi => by simpa [positions] using hi) v
    obtain ⟨m', h1, h2, h3⟩ := this
    refine ⟨_, Ends.map (m := m) (x := .ok ()) ⟨m', ?_, ?_, h3.trans rfl⟩ _, rfl⟩
    · unfold CVec.fill
      rw [bind_eq, solo_bind (solo_iter h)]; exact h1
    · simpa [Slc.put, Op.next] using h2
  | fillWith f =>
    have := ends_slFillWith hM (s := ⟨0, l.length⟩) (fun i hi => by simpa [positions] using hi) f
    obtain ⟨m', h1, h2, h3⟩ := this
    refine ⟨_, Ends.map (m := m) (x := if ∀ i, i < l.length → (f i).isSome then .ok () else .error .userCode)
      ⟨m', ?_, ?_, h3.trans rfl⟩ _, ?_⟩
    · unfold CVec.fillWith
      rw [bind_eq, solo_bind (solo_iter h)]; exact h1
    · simpa [Slc.put, Slc.of, Op.next] using h2
    · rw [map_ite]; rfl
  | elCloned e =>
    have he := hn e (by simp [Op.needs])
    exact ⟨_, (Ends.same h (solo_cloned (h.at (List.getElem?_eq_getElem he)))).map _, _, List.getElem?_eq_getElem he, rfl⟩
  | elMap f e =>
    have he := hn e (by simp [Op.needs])
    exact ⟨_, (Ends.same h (solo_elemMap (h.at (List.getElem?_eq_getElem he)) f)).map _, _, List.getElem?_eq_getElem he,
      by rw [map_closure]; rfl⟩
  | elReplace e v =>
    have he := hn e (by simp [Op.needs])
    exact ⟨_, Ends.map ⟨_, solo_replace (h.at (List.getElem?_eq_getElem he)) v, by simpa [Mem.Rep, Op.next] using h.put he v, rfl⟩ _, _,
      List.getElem?_eq_getElem he, rfl⟩
  | elSet e v =>
    have he := hn e (by simp [Op.needs])
    exact ⟨_, Ends.map ⟨_, solo_set (h.at (List.getElem?_eq_getElem he)) v, by simpa [Mem.Rep, Op.next] using h.put he v, rfl⟩ _, rfl⟩
  | elUpdate f e =>
    have he := hn e (by simp [Op.needs])
    refine ⟨_, Ends.map ⟨_, solo_update (h.at (List.getElem?_eq_getElem he)) f, ?_, rfl⟩ _, _,
      List.getElem?_eq_getElem he, by rw [map_ite]⟩
    have : l.modify e (fun v => (f v).1) = l.set e (f l[e]).1 := by
      rw [List.modify_eq_set_getElem?, List.getElem?_eq_getElem he]; rfl
    rw [Op.next, this]
    simpa [Mem.Rep] using h.put he (f l[e]).1
  | elEq veq v e =>
    have he := hn e (by simp [Op.needs])
    exact ⟨_, (Ends.same h (solo_eqVal (h.at (List.getElem?_eq_getElem he)) veq v)).map _, _, List.getElem?_eq_getElem he, rfl⟩
  | deref e =>
    have he := hp e (by simp [Op.needsPtr])
    have hv := h.at (List.getElem?_eq_getElem he)
    exact ⟨_, (Ends.same h (x := .ok l[e]) (solo_act (by simp [Act.exec, hv.cap, hv.val]))).map _, _, List.getElem?_eq_getElem he, rfl⟩
  | slLen s => exact ⟨_, Ends.same h rfl, by rw [Op.Gives, view_length]⟩
  | slIsEmpty s => exact ⟨_, Ends.same h rfl, by rw [Op.Gives, ← list_isEmpty, view_length]; rfl⟩
  | slGet s i => exact ⟨_, (Ends.same h (solo_slGet h hn i)).map _, rfl⟩
  | slIndex s i =>
    refine ⟨_, (Ends.same h (solo_slIndex h hn i)).map _, ?_⟩
    simp only [Op.Gives]
    cases s.view[i]? <;> rfl
  | slGetCloned s i => exact ⟨_, (Ends.same h (solo_slGetCloned h hn i)).map _, rfl⟩
  | slIter s => exact ⟨_, Ends.same h rfl, by rw [Op.Gives, view_eq]; rfl⟩
  | slIterCloned s => exact ⟨_, (Ends.same h (solo_loop_cloned (h.vals_slice hn))).map _, rfl⟩
  | slMap s f => exact ⟨_, (Ends.same h (solo_loop_map (h.vals_slice hn) f)).map _, by rw [map_closure]; rfl⟩
  | slFilter s f =>
    refine ⟨_, (Ends.same h (solo_loop_filter (h.vals_slice hn) f)).map _, ?_⟩
    rw [map_ite, Op.Gives, view_eq]; rfl
  | slFold s f init => exact ⟨_, (Ends.same h (solo_loop_fold (h.vals_slice hn) f init)).map _, by rw [map_closure]; rfl⟩
  | slVisit s f init => exact ⟨_, (Ends.same h (solo_loop_visit (h.vals_slice hn) f init)).map _, by rw [map_closure]; rfl⟩
  | slReduce s f => exact ⟨_, (Ends.same h (solo_loop_reduce (h.vals_slice hn) f)).map _, by rw [map_closure]; rfl⟩
  | slIndexOf s veq v =>
    refine ⟨_, (Ends.same h (solo_loop_position (h.vals_slice hn) veq v 0)).map _, ?_⟩
    rw [map_zero_add]; rfl
  | slContains s veq v =>
    have h1 := solo_loop_position (h.vals_slice hn) veq v 0
    rw [map_zero_add] at h1
    refine ⟨_, (Ends.same h (x := .ok ((s.of l).any fun x => veq x v)) ?_).map _, rfl⟩
    unfold Slc.contains Slc.indexOf
    rw [bind_eq, solo_bind h1, ← findIdx?_any]; rfl
  | slEqList s veq vs => exact ⟨_, (Ends.same h (solo_loop_eqList (h.vals_slice hn) veq vs)).map _, by rw [map_closure]; rfl⟩
  | slDebug s sh => exact ⟨_, (Ends.same h (solo_debug (h.vals_slice hn) sh)).map _, rfl⟩
  | slSlice s r => exact ⟨_, Ends.same h rfl, _, rfl, view_slice s r⟩
  | slSplitAt s mid =>
    by_cases hmid : mid ≤ s.len
    · refine ⟨_, (Ends.same h (x := .ok (⟨s.a, mid⟩, ⟨s.a + mid, s.len - mid⟩)) ?_).map _, ?_⟩
      · unfold Slc.splitAt
        rw [if_pos hmid, slice_co (Nat.zero_le _) hmid, slice_co hmid (Nat.le_refl _)]
        rfl
      · simp only [Op.Gives, view_length, if_pos hmid]
        exact ⟨_, _, rfl, view_take hmid, view_drop s mid⟩
    · refine ⟨_, (Ends.same h (x := .error .splitMid) ?_).map _, ?_⟩
      · unfold Slc.splitAt
        rw [if_neg hmid]; rfl
      · simp only [Op.Gives, view_length, if_neg hmid]; rfl
  | slSplitFirst s =>
    have h1 := solo_slGet h hn 0
    rw [view_getElem?] at h1
    by_cases h0 : s.len = 0
    · rw [if_neg (by omega)] at h1
      refine ⟨_, (Ends.same h (x := .ok none) ?_).map _, _, rfl, List.length_eq_zero_iff.1 (by rw [view_length, h0])⟩
      unfold Slc.splitFirst
      rw [bind_eq, solo_bind h1]; rfl
    · rw [if_pos (by omega)] at h1
      refine ⟨_, (Ends.same h (x := .ok (some (s.a, ⟨s.a + 1, s.len - 1⟩))) ?_).map _, _, rfl, view_cons h0⟩
      unfold Slc.splitFirst
      rw [bind_eq, solo_bind h1]
      simp only
      rw [slice_co (by omega) (Nat.le_refl _)]
      rfl
  | slSplitLast s =>
    by_cases h0 : s.len = 0
    · refine ⟨_, (Ends.same h (x := .ok none) ?_).map _, _, rfl, List.length_eq_zero_iff.1 (by rw [view_length, h0])⟩
      unfold Slc.splitLast
      rw [if_pos h0]; rfl
    · have h1 := solo_slIndex h hn (s.len - 1)
      rw [view_getElem?, if_pos (by omega)] at h1
      refine ⟨_, (Ends.same h (x := .ok (some (s.a + (s.len - 1), ⟨s.a, s.len - 1⟩))) ?_).map _, _, rfl, view_concat h0⟩
      unfold Slc.splitLast
      rw [if_neg h0]
      simp only
      rw [bind_eq, solo_bind h1, slice_co (by omega) (by omega)]
      rfl
  | slChunks s k =>
    by_cases hk : 0 < k
    · refine ⟨_, (Ends.same h (x := .ok ((List.range (numChunks s.len k)).map fun i => s.slice (chunkRange s.len k i))) ?_).map _, ?_⟩
      · unfold Slc.chunks
        rw [if_pos hk]; rfl
      · simp only [Op.Gives, if_pos hk]
        exact ⟨_, rfl, chunked s hk⟩
    · refine ⟨_, (Ends.same h (x := .error .chunkZero) ?_).map _, ?_⟩
      · unfold Slc.chunks
        rw [if_neg hk]; rfl
      · simp only [Op.Gives, if_neg hk]; rfl
  | slGetRaw s o i =>
    refine ⟨_, (Ends.same h (x := .ok s.view[i]?) ?_).map _, rfl⟩
    unfold Slc.getRaw Slc.idx
    rw [view_getElem?]
    by_cases hi : i < s.len
    · simp only [if_pos hi]
      rw [solo_getRaw h, List.getElem?_range (Slc.Within.lt (s := s) hn hi)]
    · simp only [if_neg hi]; rfl
  | slIterRef s o =>
    refine ⟨_, (Ends.same h (solo_rawRefs (h.vals_slice hn) o)).map _, ?_⟩
    rw [Op.Gives, view_eq]; rfl
  | slSwap mode s i j =>
    refine ⟨_, (ends_slSwap mode h hn (fun hi => hf (by rwa [view_length]))).map _, ?_⟩
    rw [Op.Gives, view_length]; rfl
  | slFill s v => exact ⟨_, (ends_slFill h hn v).map _, rfl⟩
  | slFillWith s f =>
    refine ⟨_, (ends_slFillWith h hn f).map _, ?_⟩
    rw [map_ite, Op.Gives, view_length]

end

end Verif
