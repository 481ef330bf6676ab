import Verif.Model.Machine
import Verif.Spec.Machine
import Verif.Proof.Wrap

/-! # Machine arithmetic: helper lemmas -/

namespace Verif

variable {α β ρ ρ' : Type} {W : Nat} {m : Mem α} {l : List α}

/-- Responses of the counters are representable. -/
def Act.Small (W : Nat) : (a : Act α) → a.Resp → Prop
  | .resFetchAdd n _, (b : Nat) => b + n < W
  | .resLoad _, (b : Nat) => b < W
  | .writtenLoad _, (b : Nat) => b < W
  | _, _ => True

/-- Two programs do the same and return results with `Q`, as long as the responses of the counters are representable. -/
inductive Same (W : Nat) (Q : ρ → Prop) : Prog α ρ → Prog α ρ → Prop where
  | ret (r : ρ) (h : Q r) : Same W Q (.ret r) (.ret r)
  | panic (k : PanicKind) : Same W Q (.panic k) (.panic k)
  | step (a : Act α) (again : a.Resp → Bool) (k k' : a.Resp → Prog α ρ) (h : ∀ b, a.Small W b → Same W Q (k b) (k' b)) :
      Same W Q (.step a again k) (.step a again k')

namespace Same

variable {Q : ρ → Prop} {R : ρ' → Prop}

theorem refl (p : Prog α ρ) : Same W (fun _ => True) p p := by
  induction p with
  | ret r => exact .ret r trivial
  | panic k => exact .panic k
  | step a again k ih => exact .step a again k k fun b _ => ih b

theorem mono {Q' : ρ → Prop} {p q : Prog α ρ} (h : Same W Q p q) (hQ : ∀ r, Q r → Q' r) : Same W Q' p q := by
  induction h with
  | ret r h => exact .ret r (hQ r h)
  | panic k => exact .panic k
  | step a again k k' _ ih => exact .step a again k k' ih

theorem bind {p q : Prog α ρ} {f g : ρ → Prog α ρ'} (h : Same W Q p q) (hf : ∀ r, Q r → Same W R (f r) (g r)) :
    Same W R (p.bind f) (q.bind g) := by
  induction h with
  | ret r h => exact hf r h
  | panic k => exact .panic k
  | step a again k k' _ ih => exact .step a again _ _ ih

/-- The programs do not return. -/
theorem weaken {p q : Prog α ρ} (h : Same W Q p q) : Same W (fun _ => True) p q := h.mono fun _ _ => trivial

end Same

section

variable (A : Arith W)

theorem num_add {a b : Nat} (h : a + b < W) : (num (A.add a b) : Prog α Nat) = .ret (a + b) := by rw [A.add_eq a b h]; rfl
theorem num_sub {a b : Nat} (h : b ≤ a) : (num (A.sub a b) : Prog α Nat) = .ret (a - b) := by rw [A.sub_eq a b h]; rfl
theorem num_mul {a b : Nat} (h : a * b < W) : (num (A.mul a b) : Prog α Nat) = .ret (a * b) := by rw [A.mul_eq a b h]; rfl

namespace Machine

theorem counted_bind (k : Nat) : ∀ (start i n : Nat), start + n = i → i + k < W →
    Same (α := α) W (fun r => r < W) (CVec.settled i k) ((counted A i k n).bind fun n => num (A.add start n)) := by
  induction k with
  | zero =>
    intro start i n hi hW
    subst hi
    simp only [CVec.settled, counted, Prog.pure_eq, Prog.ret_bind]
    rw [num_add A (by omega)]
    exact .ret _ (by omega)
  | succ k ih =>
    intro start i n hi hW
    simp only [CVec.settled, counted, act, Prog.bind_eq, Prog.step_bind, Prog.ret_bind]
    refine .step _ _ _ _ fun b _ => ?_
    split
    · rw [num_add A (by omega)]
      exact ih start (i + 1) (n + 1) (by omega) (by omega)
    · simp only [Prog.pure_eq, Prog.ret_bind]
      subst hi
      rw [num_add A (by omega)]
      exact .ret _ (by omega)

theorem until_lt {w c r : Nat} (hw : w < W) (hr : r < W) : w + ((if r ≤ c then r else c) - w) < W := by
  split <;> omega

theorem len_same : Same (α := α) W (fun r => r < W) CVec.len (len A) := by
  unfold CVec.len len
  simp only [act, Prog.bind_eq, Prog.step_bind, Prog.ret_bind]
  refine .step _ _ _ _ fun w hw => .step _ _ _ _ fun c _ => .step _ _ _ _ fun r hr => ?_
  refine (counted_bind A _ w w 0 rfl ?_).bind (fun n hn => ?_) |> fun h => by
    rw [Prog.bind_assoc] at h
    exact h
  · exact until_lt hw hr
  · exact .step _ _ _ _ fun _ _ => .ret _ hn

/-- A slice is representable: so is the position after its last one. -/
def Ok (W : Nat) (s : Slc) : Prop := s.a + s.len < W

theorem limits_le (r : Rng) (n : Nat) : (rangeLimits r n).1 ≤ (rangeLimits r n).2 ∧ (rangeLimits r n).2 ≤ n := by
  simp only [rangeLimits]; omega

theorem slice_same (r : Rng) : Same (α := α) W (Ok W) (CVec.slice r) (slice A r) := by
  refine (len_same A).bind fun n hn => ?_
  have := limits_le r n
  simp only [Prog.bind_eq, num_sub A this.1, Prog.ret_bind]
  refine .ret _ ?_
  show (rangeLimits r n).1 + ((rangeLimits r n).2 - (rangeLimits r n).1) < W
  omega

theorem asSlice_same : Same (α := α) W (Ok W) CVec.asSlice (asSlice A) :=
  (len_same A).bind fun _ _ => slice_same A _

theorem get_same (i : Nat) : Same (α := α) W (fun _ => True) (CVec.get i) (get A i) :=
  (len_same A).bind fun _ _ => .refl _

theorem iter_same : Same (α := α) W (fun _ => True) CVec.iter (iter A) :=
  (len_same A).bind fun _ _ => .ret _ trivial

theorem index_same (i : Nat) : Same (α := α) W (fun _ => True) (CVec.index i) (index A i) :=
  (get_same A i).bind fun _ _ => .refl _

theorem nItems_same {b n : Nat} (h : b + n < W) : Same (α := α) W (fun _ => True) (Col.nItems b n) (nItems A b n) := by
  unfold Col.nItems nItems
  by_cases h0 : n = 0
  · rw [if_pos h0, if_pos h0]; exact .refl _
  · rw [if_neg h0, if_neg h0]
    simp only [Prog.bind_eq, num_add A h, num_sub A (show 1 ≤ b + n by omega), Prog.ret_bind]
    exact .refl _

theorem extendN_same (items : List (Option α)) (n : Nat) : Same W (fun _ => True) (CVec.extendN items n) (extendN A items n) := by
  unfold CVec.extendN extendN
  simp only [act, Prog.bind_eq, Prog.step_bind, Prog.ret_bind]
  exact .step _ _ _ _ fun b hb => (nItems_same A hb).bind fun _ _ => .refl _

theorem extendForIdx_same (f : Nat → Option (Iter α)) (n : Nat) :
    Same W (fun _ => True) (CVec.extendForIdx f n) (extendForIdx A f n) := by
  unfold CVec.extendForIdx extendForIdx
  simp only [act, Prog.bind_eq, Prog.step_bind, Prog.ret_bind]
  exact .step _ _ _ _ fun b hb => (nItems_same A hb).bind fun _ _ => .refl _

theorem mutHandle_same (md : MutMode) (i : Nat) : Same (α := α) W (fun _ => True) (CVec.mutHandle md i) (mutHandle A md i) :=
  (len_same A).bind fun _ _ => .refl _

theorem swap_same (md : MutMode) (i j : Nat) : Same (α := α) W (fun _ => True) (CVec.swap md i j) (swap A md i j) :=
  (mutHandle_same A md i).bind fun _ _ => (mutHandle_same A md j).bind fun _ _ => .refl _

theorem reduce_same (f : α → α → Option α) : Same W (fun _ => True) (CVec.reduce f) (reduce A f) := by
  refine (asSlice_same A).bind fun s hs => ?_
  simp only [Prog.bind_eq, num_add A hs, Prog.ret_bind, Nat.add_sub_cancel_left]
  exact .refl _

theorem cloneToVec_same : Same (α := α) W (fun _ => True) CVec.cloneToVec (cloneToVec A) := by
  refine (asSlice_same A).bind fun s hs => ?_
  simp only [Prog.bind_eq, num_add A hs, Prog.ret_bind, Nat.add_sub_cancel_left]
  exact .refl _

theorem splitAt_same (mid : Nat) : Same (α := α) W (fun _ => True) (CVec.splitAt mid) (splitAt A mid) := by
  refine (len_same A).bind fun n _ => ?_
  split
  · exact (slice_same A _).bind fun s _ => (slice_same A _).bind fun t _ => .ret _ trivial
  · exact .refl _

theorem splitFirst_same : Same (α := α) W (fun _ => True) CVec.splitFirst (splitFirst A) := by
  refine (get_same A 0).bind fun r _ => ?_
  cases r with
  | none => exact .refl _
  | some a => exact (len_same A).bind fun n _ => (slice_same A _).bind fun s _ => .ret _ trivial

theorem splitLast_same : Same (α := α) W (fun _ => True) CVec.splitLast (splitLast A) := by
  refine (len_same A).bind fun n _ => ?_
  by_cases h0 : n = 0
  · rw [if_pos h0, if_pos h0]; exact .refl _
  · rw [if_neg h0, if_neg h0]
    simp only [Prog.bind_eq, num_sub A (show 1 ≤ n by omega), Prog.ret_bind]
    exact (slice_same A _).bind fun s _ => (index_same A _).bind fun i _ => .ret _ trivial

theorem chunkCount_eq {n k : Nat} (hn : n < W) (hk : 0 < k) :
    (chunkCount A n k : Prog α (Nat × Nat)) = .ret (n - n / k * k, numChunks n k) := by
  have h1 : n / k * k ≤ n := Nat.div_mul_le_self n k
  unfold chunkCount numChunks
  simp only [Prog.bind_eq, num_mul A (show n / k * k < W by omega), num_sub A h1, Prog.ret_bind, Prog.pure_eq]
  by_cases h : n - n / k * k > 0
  · rw [if_pos h, if_pos h, num_add A]
    · rfl
    · have : n / k ≤ n / k * k := Nat.le_mul_of_pos_right _ hk
      omega
  · rw [if_neg h, if_neg h]

theorem chunkEnds_eq {n k i : Nat} (hn : n < W) (hk : 0 < k) (hi : i < numChunks n k) :
    (chunkEnds A k (n - n / k * k) (numChunks n k) i : Prog α Rng) = .ret (chunkRange n k i) := by
  have h1 : n / k * k ≤ n := Nat.div_mul_le_self n k
  have h2 : n < (n / k + 1) * k := by
    have := Nat.lt_div_mul_add (a := n) hk
    rw [Nat.succ_mul]; omega
  have h3 : i * k ≤ n / k * k ∧ (i * k + k ≤ n / k * k ∨ (i = n / k ∧ numChunks n k - 1 = n / k ∧ n - n / k * k > 0)) := by
    unfold numChunks at hi ⊢
    simp only at hi ⊢
    by_cases h : n - n / k * k > 0
    · rw [if_pos h] at hi ⊢
      refine ⟨Nat.mul_le_mul_right _ (by omega), ?_⟩
      by_cases hl : i = n / k
      · exact .inr ⟨hl, rfl, h⟩
      · left
        rw [← Nat.succ_mul]
        exact Nat.mul_le_mul_right _ (by omega)
    · rw [if_neg h] at hi
      refine ⟨Nat.mul_le_mul_right _ (by omega), .inl ?_⟩
      rw [← Nat.succ_mul]
      exact Nat.mul_le_mul_right _ (by omega)
  unfold chunkEnds chunkRange
  simp only [Prog.bind_eq, num_mul A (show i * k < W by omega), num_sub A (show 1 ≤ numChunks n k by omega), Prog.ret_bind, Prog.pure_eq]
  rw [num_add A]
  · rfl
  · split
    · omega
    · rename_i hc
      rcases h3.2 with h | ⟨he, hl, hr⟩
      · omega
      · exact absurd ⟨he.trans hl.symm, hr⟩ hc

theorem chunkLoop_same {n k : Nat} (hn : n < W) (hk : 0 < k) : ∀ is : List Nat, (∀ i ∈ is, i < numChunks n k) →
    Same (α := α) W (fun _ => True) (CVec.chunkLoop n k is) (chunkLoop A k (n - n / k * k) (numChunks n k) is)
  | [], _ => .refl _
  | i :: is, h => by
    simp only [CVec.chunkLoop, chunkLoop, Prog.bind_eq, chunkEnds_eq A hn hk (h i (by simp)), Prog.ret_bind]
    exact (slice_same A _).bind fun s _ => (chunkLoop_same hn hk is fun j hj => h j (by simp [hj])).bind fun ss _ => .ret _ trivial

theorem chunks_same (k : Nat) : Same (α := α) W (fun _ => True) (CVec.chunks k) (chunks A k) := by
  unfold CVec.chunks chunks
  by_cases hk : 0 < k
  · rw [if_pos hk, if_pos hk]
    refine (len_same A).bind fun n hn => ?_
    simp only [Prog.bind_eq, chunkCount_eq A hn hk, Prog.ret_bind]
    exact chunkLoop_same A hn hk _ fun i hi => List.mem_range.1 hi
  · rw [if_neg hk, if_neg hk]; exact .refl _

/-! ## slices -/

variable {s : Slc}

theorem slIdx_eq (h : Ok W s) (i : Nat) : (slIdx A s i : Prog α (Option Nat)) = .ret (s.idx i) := by
  unfold slIdx Slc.idx
  split
  · rw [num_add A (by unfold Ok at h; omega)]; rfl
  · rfl

theorem slSlice_eq (h : Ok W s) (r : Rng) : (slSlice A s r : Prog α Slc) = .ret (s.slice r) := by
  have := limits_le r s.len
  unfold Ok at h
  unfold slSlice Slc.slice
  simp only [Prog.bind_eq, num_sub A this.1, num_add A (show s.a + (rangeLimits r s.len).1 < W by omega), Prog.ret_bind]
  rfl

theorem slIter_eq (h : Ok W s) : (slIter A s : Prog α (List Nat)) = .ret s.iter := by
  unfold slIter Slc.iter
  simp only [Prog.bind_eq, num_add A h, Prog.ret_bind, Nat.add_sub_cancel_left]
  rfl

theorem slGet_eq (h : Ok W s) (i : Nat) : (slGet A s i : Prog α (Option Nat)) = s.get i := by
  unfold slGet Slc.get
  split
  · rw [num_add A (by unfold Ok at h; omega)]; rfl
  · rfl

theorem slGetCloned_eq (h : Ok W s) (i : Nat) : (slGetCloned A s i : Prog α (Option α)) = s.getCloned i := by
  unfold slGetCloned Slc.getCloned
  split
  · rw [num_add A (by unfold Ok at h; omega)]; rfl
  · rfl

theorem slIndex_eq (h : Ok W s) (i : Nat) : (slIndex A s i : Prog α Nat) = s.index i := by
  unfold slIndex Slc.index
  rw [slGet_eq A h]
  rfl

theorem slSwap_same (h : Ok W s) (md : MutMode) (i j : Nat) : Same (α := α) W (fun _ => True) (s.swap md i j) (slSwap A md s i j) := by
  unfold slSwap Slc.swap
  simp only [Prog.bind_eq, slIdx_eq A h, Prog.ret_bind]
  rcases s.idx i with _ | i <;> rcases s.idx j with _ | j
  · exact .refl _
  · exact .refl _
  · exact .refl _
  · exact swap_same A md _ _

theorem slGetRaw_eq (h : Ok W s) (o : MOrd) (i : Nat) : (slGetRaw A s o i : Prog α (Option Nat)) = s.getRaw o i := by
  unfold slGetRaw Slc.getRaw
  simp only [Prog.bind_eq, slIdx_eq A h, Prog.ret_bind]
  rfl

theorem slSplitAt_eq (h : Ok W s) (mid : Nat) : (slSplitAt A s mid : Prog α (Slc × Slc)) = s.splitAt mid := by
  unfold slSplitAt Slc.splitAt
  simp only [Prog.bind_eq, slSlice_eq A h, Prog.ret_bind]

theorem slSplitFirst_eq (h : Ok W s) : (slSplitFirst A s : Prog α (Option (Nat × Slc))) = s.splitFirst := by
  unfold slSplitFirst Slc.splitFirst
  simp only [Prog.bind_eq, slGet_eq A h, slSlice_eq A h, Prog.ret_bind]
  rfl

theorem slSplitLast_eq (h : Ok W s) : (slSplitLast A s : Prog α (Option (Nat × Slc))) = s.splitLast := by
  unfold slSplitLast Slc.splitLast
  by_cases h0 : s.len = 0
  · rw [if_pos h0, if_pos h0]
  · rw [if_neg h0, if_neg h0]
    simp only [Prog.bind_eq, num_sub A (show 1 ≤ s.len by omega), slSlice_eq A h, slIndex_eq A h, Prog.ret_bind]

theorem slChunkLoop_eq (h : Ok W s) {k : Nat} (hk : 0 < k) : ∀ is : List Nat, (∀ i ∈ is, i < numChunks s.len k) →
    (slChunkLoop A s k (s.len - s.len / k * k) (numChunks s.len k) is : Prog α (List Slc)) =
      .ret (is.map fun i => s.slice (chunkRange s.len k i))
  | [], _ => rfl
  | i :: is, hi => by
    have hn : s.len < W := by unfold Ok at h; omega
    simp only [slChunkLoop, Prog.bind_eq, chunkEnds_eq A hn hk (hi i (by simp)), slSlice_eq A h, Prog.ret_bind,
      slChunkLoop_eq h hk is fun j hj => hi j (by simp [hj])]
    rfl

theorem slChunks_eq (h : Ok W s) (k : Nat) : (slChunks A s k : Prog α (List Slc)) = s.chunks k := by
  have hn : s.len < W := by unfold Ok at h; omega
  unfold slChunks Slc.chunks
  split
  · next hk =>
    simp only [Prog.bind_eq, chunkCount_eq A hn hk, Prog.ret_bind]
    exact slChunkLoop_eq A h hk _ fun i hi => List.mem_range.1 hi
  · rfl

end Machine

open Machine

theorem Same.mapped {Q : ρ → Prop} {p q : Prog α ρ} (h : Same W Q p q) (f : ρ → ρ') : Same W (fun _ => True) (f <$> p) (f <$> q) :=
  h.bind fun _ _ => .ret _ trivial

theorem iter_then (f : List Nat → Prog α ρ) (g : ρ → ρ') :
    Same W (fun _ => True) (g <$> (CVec.iter >>= f)) (g <$> (Machine.iter A >>= f)) :=
  ((iter_same A).bind (R := fun _ => True) fun _ _ => .refl _).mapped g

theorem slIter_then {s : Slc} (h : Ok W s) (f : List Nat → Prog α ρ) (g : ρ → ρ') :
    Same W (fun _ => True) (g <$> f s.iter) (g <$> (Machine.slIter A s >>= f)) := by
  rw [show (Machine.slIter A s >>= f) = f s.iter by rw [slIter_eq A h]; rfl]
  exact .refl _

theorem prog_same (op : Op α β) (h : ∀ s, op.slc? = some s → Ok W s) : Same W (fun _ => True) op.prog (op.progM A) := by
  cases op with
  | extend it => exact (extendN_same A _ _).mapped _
  | extendN items n => exact (extendN_same A _ _).mapped _
  | extendForIdx f n => exact (extendForIdx_same A _ _).mapped _
  | len => exact (len_same A).mapped _
  | isEmpty =>
    simp only [Op.prog, Op.progM, CVec.isEmpty, Prog.bind_eq, Prog.map_eq, Prog.bind_assoc]
    exact (len_same A).bind fun n _ => .ret _ trivial
  | get i => exact (get_same A i).mapped _
  | index i => exact (index_same A i).mapped _
  | iter => exact (iter_same A).mapped _
  | iterCloned => exact iter_then A _ _
  | map f => exact iter_then A _ _
  | filter f => exact iter_then A _ _
  | fold f init => exact iter_then A _ _
  | visit f init => exact iter_then A _ _
  | reduce f => exact (reduce_same A f).mapped _
  | indexOf veq v => exact iter_then A _ _
  | contains veq v =>
    simp only [Op.prog, Op.progM, CVec.contains, CVec.indexOf, Prog.bind_eq, Prog.map_eq, Prog.bind_assoc]
    exact (iter_same A).bind fun n _ => .refl _
  | cloneToVec => exact (cloneToVec_same A).mapped _
  | eqList veq vs => exact iter_then A _ _
  | debug sh => exact iter_then A _ _
  | slice r => exact (slice_same A r).mapped _
  | asSlice => exact (asSlice_same A).mapped _
  | splitAt mid => exact (splitAt_same A mid).mapped _
  | splitFirst => exact (splitFirst_same A).mapped _
  | splitLast => exact (splitLast_same A).mapped _
  | chunks k => exact (chunks_same A k).mapped _
  | swap md i j => exact (swap_same A md i j).mapped _
  | fill v => exact iter_then A _ _
  | fillWith f => exact iter_then A _ _
  | slGet s i => simp only [Op.prog, Op.progM, slGet_eq A (h s rfl)]; exact .refl _
  | slIndex s i => simp only [Op.prog, Op.progM, slIndex_eq A (h s rfl)]; exact .refl _
  | slGetCloned s i => simp only [Op.prog, Op.progM, slGetCloned_eq A (h s rfl)]; exact .refl _
  | slIter s => simp only [Op.prog, Op.progM, slIter_eq A (h s rfl)]; exact .refl _
  | slIterCloned s => exact slIter_then A (h s rfl) _ _
  | slMap s f => exact slIter_then A (h s rfl) _ _
  | slFilter s f => exact slIter_then A (h s rfl) _ _
  | slFold s f init => exact slIter_then A (h s rfl) _ _
  | slVisit s f init => exact slIter_then A (h s rfl) _ _
  | slReduce s f => exact slIter_then A (h s rfl) _ _
  | slIndexOf s veq v => exact slIter_then A (h s rfl) _ _
  | slContains s veq v =>
    simp only [Op.prog, Op.progM, Slc.contains, Slc.indexOf, slIter_eq A (h s rfl), Prog.bind_eq, Prog.map_eq, Prog.bind_assoc, Prog.ret_bind]
    exact .refl _
  | slEqList s veq vs => exact slIter_then A (h s rfl) (fun es => Loop.eqList veq es vs) _
  | slDebug s sh => exact slIter_then A (h s rfl) _ _
  | slSlice s r => simp only [Op.prog, Op.progM, slSlice_eq A (h s rfl)]; exact .refl _
  | slSplitAt s mid => simp only [Op.prog, Op.progM, slSplitAt_eq A (h s rfl)]; exact .refl _
  | slSplitFirst s => simp only [Op.prog, Op.progM, slSplitFirst_eq A (h s rfl)]; exact .refl _
  | slSplitLast s => simp only [Op.prog, Op.progM, slSplitLast_eq A (h s rfl)]; exact .refl _
  | slChunks s k => simp only [Op.prog, Op.progM, slChunks_eq A (h s rfl)]; exact .refl _
  | slGetRaw s o i => simp only [Op.prog, Op.progM, slGetRaw_eq A (h s rfl)]; exact .refl _
  | slIterRef s o => exact slIter_then A (h s rfl) _ _
  | slSwap md s i j => exact (slSwap_same A (h s rfl) md i j).mapped _
  | slFill s v => exact slIter_then A (h s rfl) _ _
  | slFillWith s f => exact slIter_then A (h s rfl) _ _
  | _ => exact .refl _

end

end Verif
