import Verif.Spec.Work
import Verif.Model.Api

/-!
# Counting the accesses of a call, for C57
-/

namespace Verif

variable {α β ρ ρ' : Type}

/-- What is known about the response of an action. -/
def Fits (known cap : Nat) : (a : Act α) → a.Resp → Prop
  | .capLoad _, b => (show Nat from b) ≤ cap
  | .writtenLoad _, b => known ≤ (show Nat from b) ∧ (show Nat from b) ≤ cap
  | _, _ => True

/-- The program makes at most `n` accesses (waiting aside) and returns something with `Q`; if `strict`, it never waits. -/
def Within (strict : Bool) (known cap : Nat) : Prog α ρ → Nat → (ρ → Prop) → Prop
  | .ret x, _, Q => Q x
  | .panic _, _, _ => True
  | .step a again k, n, Q => (strict = true → ∀ b, again b = false) ∧
      ∃ n', n = n' + 1 ∧ ∀ b, Fits known cap a b → again b = false → Within strict known cap (k b) n' Q

variable {s : Bool} {w M n n' : Nat} {Q Q' : ρ → Prop}

theorem Within.mono {p : Prog α ρ} (h : Within s w M p n Q) (hn : n ≤ n') (hQ : ∀ x, Q x → Q' x) : Within s w M p n' Q' := by
  induction p generalizing n n' with
  | ret x => exact hQ x h
  | panic k => trivial
  | step a again k ih =>
    obtain ⟨h0, m, rfl, h⟩ := h
    exact ⟨h0, n' - 1, by omega, fun b hb hab => ih b (h b hb hab) (by omega)⟩

theorem Within.weaken {p : Prog α ρ} (h : Within true w M p n Q) : Within s w M p n Q := by
  induction p generalizing n with
  | ret x => exact h
  | panic k => trivial
  | step a again k ih =>
    obtain ⟨h0, m, rfl, h⟩ := h
    exact ⟨fun _ => h0 rfl, m, rfl, fun b hb hab => ih b (h b hb hab)⟩

theorem Within.bind {p : Prog α ρ} {f : ρ → Prog α ρ'} {n1 n2 : Nat} {R : ρ' → Prop} (h : Within s w M p n1 Q)
    (hf : ∀ x, Q x → Within s w M (f x) n2 R) : Within s w M (p.bind f) (n1 + n2) R := by
  induction p generalizing n1 with
  | ret x => exact (hf x h).mono (by omega) fun _ h => h
  | panic k => trivial
  | step a again k ih =>
    obtain ⟨h0, m, rfl, h⟩ := h
    exact ⟨h0, m + n2, by omega, fun b hb hab => ih b (h b hb hab)⟩

/-- `bind` with the total given. -/
theorem Within.seq {p : Prog α ρ} {f : ρ → Prog α ρ'} {R : ρ' → Prop} (n1 n2 : Nat) (h : Within s w M p n1 Q)
    (hf : ∀ x, Q x → Within s w M (f x) n2 R) (hn : n1 + n2 ≤ n) : Within s w M (p.bind f) n R :=
  (h.bind hf).mono hn fun _ h => h

theorem Within.map {p : Prog α ρ} {g : ρ → ρ'} (h : Within s w M p n fun _ => True) :
    Within s w M (g <$> p) n fun _ => True :=
  Within.seq n 0 h (fun _ _ => trivial) (by omega)

theorem within_act (a : Act α) : Within s w M (act a) 1 (Fits w M a) :=
  ⟨fun _ _ => rfl, 0, rfl, fun _ hb _ => hb⟩

theorem within_spin (a : Act α) (again : a.Resp → Bool) : Within false w M (spin a again) 1 (Fits w M a) :=
  ⟨fun h => Bool.noConfusion h, 0, rfl, fun _ hb _ => hb⟩

/-! ## The functions -/

theorem within_lock (i : Nat) : Within false w M (COpt.lock i : Prog α Bool) 1 fun _ => True :=
  Within.seq 1 0 (within_spin _ _) (fun _ _ => trivial) (by omega)

theorem within_tryLock (i : Nat) : Within s w M (COpt.tryLock i : Prog α Bool) 1 fun _ => True :=
  Within.seq 1 0 (within_act _) (fun _ _ => trivial) (by omega)

theorem within_unlock (i : Nat) : Within s w M (COpt.unlock i : Prog α Unit) 1 fun _ => True :=
  (within_act _).mono (Nat.le_refl _) fun _ _ => trivial

theorem within_cloneIntoOption (i : Nat) : Within false w M (COpt.cloneIntoOption i : Prog α (Option α)) 3 fun _ => True := by
  refine Within.seq 1 2 (within_lock i) (fun b _ => ?_) (by omega)
  split
  · exact Within.seq 1 1 (within_act _) (fun v _ => Within.seq 1 0 (within_unlock i) (fun _ _ => trivial) (by omega)) (by omega)
  · trivial

theorem within_optMap (f : α → Option β) (i : Nat) : Within false w M (COpt.map f i) 3 fun _ => True := by
  refine Within.seq 1 2 (within_lock i) (fun b _ => ?_) (by omega)
  split
  · refine Within.seq 1 1 (within_act _) (fun v _ => Within.seq 1 0 (within_unlock i) (fun _ _ => ?_) (by omega)) (by omega)
    split <;> trivial
  · trivial

theorem within_isSomeAnd (f : α → Option Bool) (i : Nat) : Within false w M (COpt.isSomeAnd f i) 3 fun _ => True := by
  refine Within.seq 1 2 (within_lock i) (fun b _ => ?_) (by omega)
  split
  · refine Within.seq 1 1 (within_act _) (fun v _ => Within.seq 1 0 (within_unlock i) (fun _ _ => ?_) (by omega)) (by omega)
    split <;> trivial
  · trivial

theorem within_optReplace (i : Nat) (v : α) : Within false w M (COpt.replace i v) 4 fun _ => True := by
  refine Within.seq 1 3 (within_lock i) (fun b _ => ?_) (by omega)
  split
  · exact Within.seq 1 2 (within_act _) (fun v _ => Within.seq 1 1 (within_act _)
      (fun _ _ => Within.seq 1 0 (within_unlock i) (fun _ _ => trivial) (by omega)) (by omega)) (by omega)
  · trivial

theorem within_setSome (i : Nat) (v : α) : Within false w M (COpt.setSome i v) 3 fun _ => True := by
  refine Within.seq 1 2 (within_lock i) (fun b _ => ?_) (by omega)
  split
  · exact Within.seq 1 1 (within_act _)
      (fun _ _ => Within.seq 1 0 (within_unlock i) (fun _ _ => trivial) (by omega)) (by omega)
  · trivial

theorem within_updateIfSome (f : α → α × Bool) (i : Nat) : Within false w M (COpt.updateIfSome f i) 4 fun _ => True := by
  refine Within.seq 1 3 (within_lock i) (fun b _ => ?_) (by omega)
  split
  · refine Within.seq 1 2 (within_act _) (fun v _ => Within.seq 1 1 (within_act _)
      (fun _ _ => Within.seq 1 0 (within_unlock i) (fun _ _ => ?_) (by omega)) (by omega)) (by omega)
    split <;> trivial
  · trivial

theorem within_init (i : Nat) (v : α) : Within s w M (COpt.init i v) 2 fun _ => True :=
  Within.seq 1 1 (within_act _) (fun _ _ => (within_act _).mono (Nat.le_refl _) fun _ _ => trivial) (by omega)

theorem within_optGetRaw (o : MOrd) (i : Nat) : Within s w M (COpt.getRaw o i : Prog α (Option Nat)) 1 fun _ => True :=
  Within.seq 1 0 (within_act _) (fun _ _ => trivial) (by omega)

theorem within_colGet (i : Nat) : Within s w M (Col.get i : Prog α (Option Nat)) 1 fun _ => True :=
  Within.seq 1 0 (within_act _) (fun _ _ => trivial) (by omega)

theorem within_assert (i : Nat) : Within s w M (Col.assertHasCapacityFor i : Prog α Unit) 1 fun _ => True := by
  refine Within.seq 1 0 (within_act _) (fun b _ => ?_) (by omega)
  try dsimp only
  split <;> trivial

theorem within_growTo (k : Nat) : Within s w M (Col.growTo k : Prog α Unit) 4 fun _ => True := by
  refine Within.seq 1 3 (within_act _) (fun b _ => ?_) (by omega)
  try dsimp only
  split
  · trivial
  · refine Within.seq 1 2 (within_act _) (fun b _ => ?_) (by omega)
    try dsimp only
    split
    · exact Within.seq 1 1 (within_act _) (fun _ _ => (within_act _).mono (Nat.le_refl _) fun _ _ => trivial) (by omega)
    · trivial

theorem within_singleItem (i : Nat) : Within false w M (Col.singleItem i : Prog α Unit) 6 fun _ => True := by
  refine Within.seq 1 5 (within_assert i) (fun _ _ => ?_) (by omega)
  refine Within.seq 1 4 (within_spin _ _) (fun c _ => ?_) (by omega)
  try dsimp only
  split
  · trivial
  · exact within_growTo _
  · trivial

theorem within_nItems (b k : Nat) : Within false w M (Col.nItems b k : Prog α Unit) 6 fun _ => True := by
  unfold Col.nItems
  split
  · trivial
  · refine Within.seq 1 5 (within_assert _) (fun _ _ => ?_) (by omega)
    refine Within.seq 1 4 (within_spin _ _) (fun c _ => ?_) (by omega)
    try dsimp only
    split
    · trivial
    · exact within_growTo _
    · trivial

theorem within_settled (start k : Nat) : Within s w M (CVec.settled start k : Prog α Nat) k fun n => start ≤ n ∧ n ≤ start + k := by
  induction k generalizing start with
  | zero => exact ⟨Nat.le_refl _, Nat.le_refl _⟩
  | succ k ih =>
    refine Within.seq 1 k (within_act _) (fun b _ => ?_) (by omega)
    try dsimp only
    split
    · exact (ih (start + 1)).mono (Nat.le_refl _) fun x hx => by omega
    · exact ⟨Nat.le_refl _, by omega⟩

theorem within_len : Within s w M (CVec.len : Prog α Nat) (lenWork w M) fun n => n ≤ M := by
  unfold lenWork
  refine Within.seq 1 (3 + (M - w)) (within_act _) (fun n0 h0 => ?_) (by omega)
  refine Within.seq 1 (2 + (M - w)) (within_act _) (fun c hc => ?_) (by omega)
  refine Within.seq 1 (1 + (M - w)) (within_act _) (fun r _ => ?_) (by omega)
  try dsimp only
  obtain ⟨h1, h2⟩ := h0
  replace hc : (show Nat from c) ≤ M := hc
  have hu : (if (show Nat from r) ≤ (show Nat from c) then (show Nat from r) else (show Nat from c)) ≤ M := by
    split <;> omega
  generalize (if (show Nat from r) ≤ (show Nat from c) then (show Nat from r) else (show Nat from c)) = u at hu
  refine Within.seq (M - w) 1 ((within_settled _ _).mono (n' := M - w) ?_ fun _ h => h) (fun x hx => ?_) (by omega)
  · change u - (show Nat from n0) ≤ _
    omega
  · have hx' : x ≤ M := by
      have := hx.2
      change x ≤ (show Nat from n0) + (u - (show Nat from n0)) at this
      omega
    exact Within.seq 1 0 (within_act _) (fun _ _ => hx') (by omega)

theorem within_reservedLen : Within s w M (CVec.reservedLen : Prog α Nat) 2 fun n => n ≤ M := by
  refine Within.seq 1 1 (within_act _) (fun r _ => ?_) (by omega)
  refine Within.seq 1 0 (within_act _) (fun c hc => ?_) (by omega)
  replace hc : (show Nat from c) ≤ M := hc
  change (if (show Nat from r) ≤ (show Nat from c) then (show Nat from r) else (show Nat from c)) ≤ M
  split <;> omega

theorem within_iter : Within s w M (CVec.iter : Prog α (List Nat)) (lenWork w M) fun es => es.length ≤ M :=
  Within.seq (lenWork w M) 0 within_len (fun x hx => by simpa [Within] using hx) (by omega)

theorem within_slice (r : Rng) : Within s w M (CVec.slice r : Prog α Slc) (lenWork w M) fun t => t.len ≤ M := by
  refine Within.seq (lenWork w M) 0 within_len (fun x hx => ?_) (by omega)
  have : (rangeLimits r x).2 ≤ x := by
    unfold rangeLimits; dsimp only; split <;> omega
  change (rangeLimits r x).2 - (rangeLimits r x).1 ≤ M
  omega

theorem within_get (i : Nat) : Within s w M (CVec.get i : Prog α (Option Nat)) (lenWork w M + 1) fun _ => True := by
  refine Within.seq (lenWork w M) 1 within_len (fun x hx => ?_) (by omega)
  try dsimp only
  split
  · exact within_colGet i
  · trivial

theorem within_index (i : Nat) : Within s w M (CVec.index i : Prog α Nat) (lenWork w M + 1) fun _ => True := by
  refine Within.seq (lenWork w M + 1) 0 (within_get i) (fun x hx => ?_) (by omega)
  try dsimp only
  split <;> trivial

theorem within_getCloned (i : Nat) : Within false w M (CVec.getCloned i : Prog α (Option α)) 6 fun _ => True := by
  refine Within.seq 2 4 within_reservedLen (fun x hx => ?_) (by omega)
  try dsimp only
  split
  · refine Within.seq 1 3 (within_colGet i) (fun y _ => ?_) (by omega)
    try dsimp only
    split
    · exact within_cloneIntoOption _
    · trivial
  · trivial

theorem within_cloned (i : Nat) : Within false w M (Elem.cloned i : Prog α α) 3 fun _ => True := by
  refine Within.seq 3 0 (within_cloneIntoOption i) (fun x hx => ?_) (by omega)
  try dsimp only
  split <;> trivial

theorem within_map (f : α → Option β) (i : Nat) : Within false w M (Elem.map f i) 3 fun _ => True := by
  refine Within.seq 3 0 (within_optMap f i) (fun x hx => ?_) (by omega)
  try dsimp only
  split <;> trivial

theorem within_replace (i : Nat) (v : α) : Within false w M (Elem.replace i v) 4 fun _ => True := by
  refine Within.seq 4 0 (within_optReplace i v) (fun x hx => ?_) (by omega)
  try dsimp only
  split <;> trivial

theorem within_set (i : Nat) (v : α) : Within false w M (Elem.set i v) 3 fun _ => True := by
  refine Within.seq 3 0 (within_setSome i v) (fun x hx => ?_) (by omega)
  try dsimp only
  split <;> trivial

theorem within_update (f : α → α × Bool) (i : Nat) : Within false w M (Elem.update f i) 4 fun _ => True := by
  refine Within.seq 4 0 (within_updateIfSome f i) (fun x hx => ?_) (by omega)
  try dsimp only
  split <;> trivial

/-! ### loops -/

theorem within_loopCloned (es : List Nat) : Within false w M (Loop.cloned es : Prog α (List α)) (3 * es.length) fun _ => True := by
  induction es with
  | nil => trivial
  | cons i es ih =>
    rw [List.length_cons]
    refine Within.seq 3 (3 * es.length) (within_cloned i) (fun v _ => ?_) (by omega)
    exact Within.seq _ 0 ih (fun _ _ => trivial) (by omega)

theorem within_loopMap (f : α → Option β) (es : List Nat) : Within false w M (Loop.map f es) (3 * es.length) fun _ => True := by
  induction es with
  | nil => trivial
  | cons i es ih =>
    rw [List.length_cons]
    refine Within.seq 3 (3 * es.length) (within_map f i) (fun v _ => ?_) (by omega)
    exact Within.seq _ 0 ih (fun _ _ => trivial) (by omega)

theorem within_loopFilter (f : α → Option Bool) (es : List Nat) : Within false w M (Loop.filter f es) (3 * es.length) fun _ => True := by
  induction es with
  | nil => trivial
  | cons i es ih =>
    rw [List.length_cons]
    refine Within.seq 3 (3 * es.length) (within_map f i) (fun v _ => ?_) (by omega)
    exact Within.seq _ 0 ih (fun _ _ => trivial) (by omega)

theorem within_loopFold (f : β → α → Option β) (agg : β) (es : List Nat) :
    Within false w M (Loop.fold f agg es) (3 * es.length) fun _ => True := by
  induction es generalizing agg with
  | nil => trivial
  | cons i es ih =>
    rw [List.length_cons]
    exact Within.seq 3 (3 * es.length) (within_map _ i) (fun v _ => ih v) (by omega)

theorem within_loopVisit (f : β → α → Option (β × Bool)) (agg : β) (es : List Nat) :
    Within false w M (Loop.visit f agg es) (3 * es.length) fun _ => True := by
  induction es generalizing agg with
  | nil => trivial
  | cons i es ih =>
    rw [List.length_cons]
    refine Within.seq 3 (3 * es.length) (within_map _ i) (fun v _ => ?_) (by omega)
    try dsimp only
    split
    · exact ih _
    · trivial

theorem within_loopReduce (f : α → α → Option α) (es : List Nat) : Within false w M (Loop.reduce f es) (3 * es.length) fun _ => True := by
  cases es with
  | nil => trivial
  | cons i es =>
    rw [List.length_cons]
    refine Within.seq 3 (3 * es.length) (within_cloned i) (fun v _ => ?_) (by omega)
    exact Within.seq _ 0 (within_loopFold f v es) (fun _ _ => trivial) (by omega)

theorem within_loopPosition (veq : α → α → Bool) (v : α) (k : Nat) (es : List Nat) :
    Within false w M (Loop.position veq v k es) (3 * es.length) fun _ => True := by
  induction es generalizing k with
  | nil => trivial
  | cons i es ih =>
    rw [List.length_cons]
    refine Within.seq 3 (3 * es.length) (within_map _ i) (fun v _ => ?_) (by omega)
    split
    · trivial
    · exact ih _

theorem within_loopFill (v : α) (es : List Nat) : Within false w M (Loop.fill v es) (3 * es.length) fun _ => True := by
  induction es with
  | nil => trivial
  | cons i es ih =>
    rw [List.length_cons]
    exact Within.seq 3 (3 * es.length) (within_set _ _) (fun v _ => ih) (by omega)

theorem within_loopFillWith (f : Nat → Option α) (k : Nat) (es : List Nat) :
    Within false w M (Loop.fillWith f k es) (3 * es.length) fun _ => True := by
  induction es generalizing k with
  | nil => trivial
  | cons i es ih =>
    rw [List.length_cons]
    unfold Loop.fillWith
    split
    · exact Within.seq 3 (3 * es.length) (within_set _ _) (fun v _ => ih _) (by omega)
    · trivial

theorem within_loopEqList (veq : α → α → Option Bool) (es : List Nat) (vs : List α) :
    Within false w M (Loop.eqList veq es vs) (3 * min es.length vs.length) fun _ => True := by
  induction es generalizing vs with
  | nil => cases vs <;> trivial
  | cons i es ih =>
    cases vs with
    | nil => trivial
    | cons v vs =>
      rw [List.length_cons, List.length_cons]
      refine Within.seq 3 (3 * min es.length vs.length) (within_isSomeAnd _ i) (fun b _ => ?_) (by omega)
      split
      · exact ih vs
      · trivial

theorem within_debugRest (sh : α → String) (t : String) (es : List Nat) :
    Within false w M (Loop.debugRest sh t es) (3 * es.length) fun _ => True := by
  induction es generalizing t with
  | nil => trivial
  | cons i es ih =>
    rw [List.length_cons]
    exact Within.seq 3 (3 * es.length) (within_map _ i) (fun v _ => ih v) (by omega)

theorem within_loopDebug (sh : α → String) (es : List Nat) : Within false w M (Loop.debug sh es) (3 * es.length) fun _ => True := by
  cases es with
  | nil => trivial
  | cons i es =>
    rw [List.length_cons]
    refine Within.seq 3 (3 * es.length) (within_map _ i) (fun v _ => ?_) (by omega)
    exact Within.seq _ 0 (within_debugRest sh v es) (fun _ _ => trivial) (by omega)

theorem within_rawRefs (o : MOrd) (es : List Nat) : Within s w M (Loop.rawRefs o es : Prog α (List Nat)) es.length fun _ => True := by
  induction es with
  | nil => trivial
  | cons i es ih =>
    rw [List.length_cons]
    refine Within.seq 1 es.length (within_optGetRaw o i) (fun v _ => ?_) (by omega)
    refine Within.seq _ 0 ih (fun _ _ => ?_) (by omega)
    try dsimp only
    split <;> trivial

/-! ### the vector -/

theorem within_writeItems (i k : Nat) (vs : List (Option α)) : Within s w M (CVec.writeItems i k vs) (2 * k) fun _ => True := by
  induction k generalizing i vs with
  | zero => unfold CVec.writeItems; trivial
  | succ k ih =>
    rcases vs with _ | ⟨_ | v, vs⟩
    · trivial
    · trivial
    · exact Within.seq 2 (2 * k) (within_init _ _) (fun _ _ => ih _ _) (by omega)

theorem within_push (v : α) : Within false w M (CVec.push v) 9 fun _ => True := by
  refine Within.seq 1 8 (within_act _) (fun i _ => ?_) (by omega)
  refine Within.seq 6 2 (within_singleItem _) (fun _ _ => ?_) (by omega)
  exact Within.seq 2 0 (within_init _ _) (fun _ _ => trivial) (by omega)

theorem within_pushForIdx (f : Nat → Option α) : Within false w M (CVec.pushForIdx f) 9 fun _ => True := by
  refine Within.seq 1 8 (within_act _) (fun i _ => ?_) (by omega)
  try dsimp only
  split
  · refine Within.seq 6 2 (within_singleItem _) (fun _ _ => ?_) (by omega)
    exact Within.seq 2 0 (within_init _ _) (fun _ _ => trivial) (by omega)
  · trivial

theorem within_extendN (items : List (Option α)) (k : Nat) : Within false w M (CVec.extendN items k) (7 + 2 * k) fun _ => True := by
  refine Within.seq 1 (6 + 2 * k) (within_act _) (fun i _ => ?_) (by omega)
  refine Within.seq 6 (2 * k) (within_nItems _ _) (fun _ _ => ?_) (by omega)
  exact Within.seq (2 * k) 0 (within_writeItems _ _ _) (fun _ _ => trivial) (by omega)

theorem within_extendForIdx (f : Nat → Option (Iter α)) (k : Nat) : Within false w M (CVec.extendForIdx f k) (7 + 2 * k) fun _ => True := by
  refine Within.seq 1 (6 + 2 * k) (within_act _) (fun i _ => ?_) (by omega)
  refine Within.seq 6 (2 * k) (within_nItems _ _) (fun _ _ => ?_) (by omega)
  try dsimp only
  split
  · split
    · exact Within.seq (2 * k) 0 (within_writeItems _ _ _) (fun _ _ => trivial) (by omega)
    · trivial
  · trivial

/-- A loop over all elements. -/
theorem within_over {loop : List Nat → Prog α ρ} (h : ∀ es, Within false w M (loop es) (3 * es.length) fun _ => True) :
    Within false w M (CVec.iter.bind loop) (lenWork w M + 3 * M) fun _ => True :=
  Within.seq (lenWork w M) (3 * M) within_iter (fun es hes => (h es).mono (by omega) fun _ h => h) (by omega)

theorem within_getRaw (o : MOrd) (i : Nat) : Within s w M (CVec.getRaw o i : Prog α (Option Nat)) 4 fun _ => True := by
  refine Within.seq 2 2 within_reservedLen (fun x hx => ?_) (by omega)
  try dsimp only
  split
  · refine Within.seq 1 1 (within_colGet i) (fun y _ => ?_) (by omega)
    try dsimp only
    split
    · exact within_optGetRaw _ _
    · trivial
  · trivial

theorem within_iterRef (o : MOrd) : Within s w M (CVec.iterRef o : Prog α (List Nat)) (2 + M) fun _ => True :=
  Within.seq 2 M within_reservedLen (fun x hx => (within_rawRefs o _).mono (by rw [List.length_range']; exact hx) fun _ h => h) (by omega)

/-! ### slices -/

theorem within_slcGet (t : Slc) (i : Nat) : Within s w M (t.get i : Prog α (Option Nat)) 1 fun _ => True := by
  unfold Slc.get
  split
  · exact within_colGet _
  · trivial

theorem within_slcIndex (t : Slc) (i : Nat) : Within s w M (t.index i : Prog α Nat) 1 fun _ => True := by
  refine Within.seq 1 0 (within_slcGet t i) (fun x hx => ?_) (by omega)
  try dsimp only
  split <;> trivial

theorem within_slcGetCloned (t : Slc) (i : Nat) : Within false w M (t.getCloned i : Prog α (Option α)) 4 fun _ => True := by
  unfold Slc.getCloned
  split
  · refine Within.seq 1 3 (within_colGet _) (fun x hx => ?_) (by omega)
    try dsimp only
    split
    · exact Within.seq 3 0 (within_cloned _) (fun _ _ => trivial) (by omega)
    · trivial
  · trivial

theorem within_slc {loop : List Nat → Prog α ρ} (h : ∀ es, Within false w M (loop es) (3 * es.length) fun _ => True) (t : Slc) :
    Within false w M (loop t.iter) (3 * t.len) fun _ => True :=
  (h _).mono (by unfold Slc.iter; rw [List.length_range']; exact Nat.le_refl _) fun _ h => h

theorem within_slcSplitFirst (t : Slc) : Within s w M (t.splitFirst : Prog α (Option (Nat × Slc))) 1 fun _ => True := by
  refine Within.seq 1 0 (within_slcGet t 0) (fun x hx => ?_) (by omega)
  split <;> trivial

theorem within_slcSplitLast (t : Slc) : Within s w M (t.splitLast : Prog α (Option (Nat × Slc))) 1 fun _ => True := by
  unfold Slc.splitLast
  split
  · trivial
  · exact Within.seq 1 0 (within_slcIndex t _) (fun x hx => trivial) (by omega)

theorem within_slcSplitAt (t : Slc) (mid : Nat) : Within s w M (t.splitAt mid : Prog α (Slc × Slc)) 0 fun _ => True := by
  unfold Slc.splitAt
  split <;> trivial

theorem within_slcChunks (t : Slc) (k : Nat) : Within s w M (t.chunks k : Prog α (List Slc)) 0 fun _ => True := by
  unfold Slc.chunks
  split <;> trivial

theorem within_slcGetRaw (t : Slc) (o : MOrd) (i : Nat) : Within s w M (t.getRaw o i : Prog α (Option Nat)) 4 fun _ => True := by
  unfold Slc.getRaw
  split
  · exact within_getRaw o _
  · trivial

/-! ### functions that call `len` repeatedly

What such a function has counted need not be counted again, so the bound depends on what is known in the meantime. -/

/-- What the call knows of the length after an action. -/
def knows (w : Nat) : Act α → Nat
  | .writtenFetchMax n _ => max w n
  | _ => w

/-- As `Within`, where it is taken into account what the call gets to know; the postcondition also speaks about that and about
the accesses that are left over. -/
def Costs (strict : Bool) (cap : Nat) : Prog α ρ → Nat → Nat → (Nat → Nat → ρ → Prop) → Prop
  | .ret x, w, n, Q => Q w n x
  | .panic _, _, _, _ => True
  | .step a again k, w, n, Q => (strict = true → ∀ b, again b = false) ∧
      ∃ n', n = n' + 1 ∧ ∀ b, Fits w cap a b → again b = false → Costs strict cap (k b) (knows w a) n' Q

variable {P P' : Nat → Nat → ρ → Prop}

theorem Costs.post {p : Prog α ρ} (h : Costs s M p w n P) (hQ : ∀ w n x, P w n x → P' w n x) : Costs s M p w n P' := by
  induction p generalizing w n with
  | ret x => exact hQ _ _ x h
  | panic k => trivial
  | step a again k ih =>
    obtain ⟨h0, m, rfl, h⟩ := h
    exact ⟨h0, m, rfl, fun b hb hab => ih b (h b hb hab)⟩

theorem Costs.more {p : Prog α ρ} (h : Costs s M p w n fun _ _ _ => True) (hn : n ≤ n') : Costs s M p w n' fun _ _ _ => True := by
  induction p generalizing w n n' with
  | ret x => trivial
  | panic k => trivial
  | step a again k ih =>
    obtain ⟨h0, m, rfl, h⟩ := h
    exact ⟨h0, n' - 1, by omega, fun b hb hab => ih b (h b hb hab) (by omega)⟩

theorem Costs.weaken {p : Prog α ρ} (h : Costs true M p w n P) : Costs s M p w n P := by
  induction p generalizing w n with
  | ret x => exact h
  | panic k => trivial
  | step a again k ih =>
    obtain ⟨h0, m, rfl, h⟩ := h
    exact ⟨fun _ => h0 rfl, m, rfl, fun b hb hab => ih b (h b hb hab)⟩

theorem Costs.bind {p : Prog α ρ} {f : ρ → Prog α ρ'} {R : Nat → Nat → ρ' → Prop} (h : Costs s M p w n P)
    (hf : ∀ w' n' x, P w' n' x → Costs s M (f x) w' n' R) : Costs s M (p.bind f) w n R := by
  induction p generalizing w n with
  | ret x => exact hf _ _ x h
  | panic k => trivial
  | step a again k ih =>
    obtain ⟨h0, m, rfl, h⟩ := h
    exact ⟨h0, m, rfl, fun b hb hab => ih b (h b hb hab)⟩

theorem Costs.map {p : Prog α ρ} {g : ρ → ρ'} (h : Costs s M p w n P) : Costs s M (g <$> p) w n fun _ _ _ => True :=
  Costs.bind h fun _ _ _ _ => trivial

theorem le_knows (w : Nat) (a : Act α) : w ≤ knows w a := by
  cases a <;> first | exact Nat.le_refl _ | exact Nat.le_max_left _ _

theorem Fits.le {a : Act α} {b : a.Resp} {w w' : Nat} (h : Fits w' M a b) (hw : w ≤ w') : Fits w M a b := by
  cases a <;> first | exact trivial | exact h | exact ⟨Nat.le_trans hw h.1, h.2⟩

theorem Within.costs {p : Prog α ρ} {w' : Nat} (h : Within s w M p n Q) (hw : w ≤ w') (hn : n ≤ n') :
    Costs s M p w' n' fun w2 n2 x => w' ≤ w2 ∧ n' - n ≤ n2 ∧ Q x := by
  induction p generalizing n n' w' with
  | ret x => exact ⟨Nat.le_refl _, by omega, h⟩
  | panic k => trivial
  | step a again k ih =>
    obtain ⟨h0, m, rfl, h⟩ := h
    refine ⟨h0, n' - 1, by omega, fun b hb hab => ?_⟩
    refine (ih b (h b (hb.le hw) hab) (Nat.le_trans hw (le_knows w' a)) (by omega : m ≤ n' - 1)).post fun w2 n2 x hx => ?_
    exact ⟨Nat.le_trans (le_knows w' a) hx.1, by omega, hx.2.2⟩

/-- A program with a fixed bound in the end. -/
theorem Within.costs' {p : Prog α ρ} (h : Within s w M p n Q) (hn : n ≤ n') : Costs s M p w n' fun _ _ _ => True :=
  (h.costs (Nat.le_refl w) hn).post fun _ _ _ _ => trivial

theorem costs_settled (start k N : Nat) : Costs s M (CVec.settled start k : Prog α Nat) w (k + 1 + N)
    fun w' n' x => w' = w ∧ start ≤ x ∧ x ≤ start + k ∧ k + N ≤ n' + (x - start) := by
  induction k generalizing start N with
  | zero => exact ⟨rfl, Nat.le_refl _, Nat.le_refl _, by omega⟩
  | succ k ih =>
    refine ⟨fun _ _ => rfl, k + 1 + N, by omega, fun b _ _ => ?_⟩
    change Costs s M (if (show CState from b) = .SOME then CVec.settled (start + 1) k else pure start) w _ _
    split
    · refine (ih (start + 1) N).post fun w' n' x hx => ?_
      omega
    · exact ⟨rfl, Nat.le_refl _, by omega, by omega⟩

/-- A `len` after which others follow: it costs 5, and the elements that it counts need not be counted again. -/
theorem costs_len (N : Nat) : Costs s M (CVec.len : Prog α Nat) w (5 + (M - w) + N)
    fun w' n' x => w ≤ w' ∧ x ≤ M ∧ M - w' + N ≤ n' := by
  refine ⟨fun _ _ => rfl, 4 + (M - w) + N, by omega, fun n0 h0 _ => ?_⟩
  refine ⟨fun _ _ => rfl, 3 + (M - w) + N, by omega, fun c hc _ => ?_⟩
  refine ⟨fun _ _ => rfl, 2 + (M - w) + N, by omega, fun r _ _ => ?_⟩
  obtain ⟨h1, h2⟩ := h0
  replace hc : (show Nat from c) ≤ M := hc
  change Costs s M ((CVec.settled (show Nat from n0) ((if (show Nat from r) ≤ (show Nat from c) then (show Nat from r) else (show Nat from c)) - (show Nat from n0))).bind
    fun x => (act (.writtenFetchMax x .release)).bind fun _ => pure x) w _ _
  have hu : (if (show Nat from r) ≤ (show Nat from c) then (show Nat from r) else (show Nat from c)) ≤ M := by
    split <;> omega
  generalize (if (show Nat from r) ≤ (show Nat from c) then (show Nat from r) else (show Nat from c)) = u at hu
  generalize (show Nat from n0) = n0 at h1 h2 ⊢
  have hk : 2 + (M - w) + N = (u - n0) + 1 + (1 + (M - w) - (u - n0) + N) := by omega
  rw [hk]
  refine Costs.bind (costs_settled _ _ _) fun w' n' x hx => ?_
  obtain ⟨rfl, hx1, hx2, hx3⟩ := hx
  refine ⟨fun _ _ => rfl, n' - 1, by omega, fun _ _ _ => ?_⟩
  refine ⟨Nat.le_max_left _ _, by omega, ?_⟩
  change M - max w' x + N ≤ n' - 1
  omega

theorem costs_slice (r : Rng) (N : Nat) : Costs s M (CVec.slice r : Prog α Slc) w (5 + (M - w) + N)
    fun w' n' t => w ≤ w' ∧ t.len ≤ M ∧ M - w' + N ≤ n' := by
  refine Costs.bind (costs_len N) fun w' n' x hx => ?_
  have : (rangeLimits r x).2 ≤ x := by
    unfold rangeLimits; dsimp only; split <;> omega
  exact ⟨hx.1, (by change (rangeLimits r x).2 - (rangeLimits r x).1 ≤ M; omega), hx.2.2⟩

/-- The last `len`. -/
theorem costs_asSlice (N : Nat) : Costs s M (CVec.asSlice : Prog α Slc) w (lenWork w M + 5 + N)
    fun _ n' t => t.len ≤ M ∧ N ≤ n' := by
  have : lenWork w M + 5 + N = 5 + (M - w) + (4 + N) := by unfold lenWork; omega
  rw [this]
  refine Costs.bind (costs_len _) fun w' n' x hx => ?_
  refine ((within_slice (.co 0 x)).costs (Nat.le_refl w') (by unfold lenWork; omega : lenWork w' M ≤ n')).post fun w2 n2 t ht => ?_
  unfold lenWork at ht
  exact ⟨ht.2.2, by omega⟩

theorem costs_overSlice {loop : List Nat → Prog α ρ} (h : ∀ w es, Within false w M (loop es) (3 * es.length) fun _ => True) :
    Costs false M (CVec.asSlice.bind fun t => loop (positions t.a t.len)) w (lenWork w M + 5 + 3 * M) fun _ _ _ => True :=
  Costs.bind (costs_asSlice _) fun w' _ t ht => (h w' _).costs' (by rw [List.length_range']; omega)

theorem costs_splitAt (mid : Nat) : Costs s M (CVec.splitAt mid : Prog α (Slc × Slc)) w (lenWork w M + 2 * 5) fun _ _ _ => True := by
  have : lenWork w M + 2 * 5 = 5 + (M - w) + 9 := by unfold lenWork; omega
  rw [this]
  refine Costs.bind (costs_len _) fun w' n' x hx => ?_
  split
  · have : n' = 5 + (M - w') + (n' - 5 - (M - w')) := by omega
    rw [this]
    refine Costs.bind (costs_slice _ _) fun w2 n2 x hx => ?_
    refine Costs.bind ((within_slice _).costs' (by unfold lenWork; omega : lenWork w2 M ≤ n2)) fun _ _ _ _ => trivial
  · trivial

theorem costs_get (i N : Nat) : Costs s M (CVec.get i : Prog α (Option Nat)) w (5 + (M - w) + (N + 1))
    fun w' n' _ => w ≤ w' ∧ M - w' + N ≤ n' := by
  refine Costs.bind (costs_len (N + 1)) fun w' n' x hx => ?_
  split
  · refine ((within_colGet i).costs (Nat.le_refl w') (by omega : 1 ≤ n')).post fun w2 n2 _ h => ?_
    omega
  · exact ⟨hx.1, by omega⟩

theorem costs_splitFirst : Costs s M (CVec.splitFirst : Prog α (Option (Nat × Slc))) w (lenWork w M + 2 * 5 + 1) fun _ _ _ => True := by
  have : lenWork w M + 2 * 5 + 1 = 5 + (M - w) + (9 + 1) := by unfold lenWork; omega
  rw [this]
  refine Costs.bind (costs_get 0 9) fun w' n' x hx => ?_
  split
  · have : n' = 5 + (M - w') + (n' - 5 - (M - w')) := by omega
    rw [this]
    refine Costs.bind (costs_len _) fun w2 n2 x hx => ?_
    refine Costs.bind ((within_slice _).costs' (by unfold lenWork; omega : lenWork w2 M ≤ n2)) fun _ _ _ _ => trivial
  · trivial

theorem costs_splitLast : Costs s M (CVec.splitLast : Prog α (Option (Nat × Slc))) w (lenWork w M + 2 * 5 + 1) fun _ _ _ => True := by
  have : lenWork w M + 2 * 5 + 1 = 5 + (M - w) + 10 := by unfold lenWork; omega
  rw [this]
  refine Costs.bind (costs_len _) fun w' n' x hx => ?_
  split
  · trivial
  · have : n' = 5 + (M - w') + (n' - 5 - (M - w')) := by omega
    rw [this]
    refine Costs.bind (costs_slice _ _) fun w2 n2 x hx => ?_
    refine Costs.bind ((within_index _).costs' (by unfold lenWork; omega : lenWork w2 M + 1 ≤ n2)) fun _ _ _ _ => trivial

theorem costs_chunkLoop (k j : Nat) (is : List Nat) (hn : is.length * 5 - 1 + (M - w) ≤ n) :
    Costs s M (CVec.chunkLoop k j is : Prog α (List Slc)) w n fun _ _ _ => True := by
  induction is generalizing w n with
  | nil => trivial
  | cons i is ih =>
    rw [List.length_cons] at hn
    rcases is with _ | ⟨i', is⟩
    · exact Costs.bind ((within_slice _).costs' (by unfold lenWork; simp at hn; omega)) fun _ _ _ _ =>
        Costs.bind (P := fun _ _ _ => True) trivial fun _ _ _ _ => trivial
    · rw [List.length_cons] at hn ih
      have : n = 5 + (M - w) + (n - 5 - (M - w)) := by omega
      rw [this]
      refine Costs.bind (costs_slice _ _) fun w2 n2 x hx => ?_
      exact Costs.bind (ih (by omega)) fun _ _ _ _ => trivial

theorem numChunks_le {k k' j : Nat} (hj : 0 < j) (hk : k ≤ k') : numChunks k j ≤ (k' + j - 1) / j := by
  rw [Nat.le_div_iff_mul_le hj]
  have h1 := Nat.div_mul_le_self k j
  unfold numChunks
  dsimp only
  split
  · rw [Nat.add_mul]; omega
  · omega

theorem costs_chunks (k : Nat) : Costs s M (CVec.chunks k : Prog α (List Slc)) w (lenWork w M + ((M + k - 1) / k) * 5)
    fun _ _ _ => True := by
  unfold CVec.chunks
  split
  · rename_i hk
    -- the first `len` may be the last one
    rcases Nat.eq_zero_or_pos ((M + k - 1) / k) with h0 | hpos
    · rw [h0]
      refine Costs.bind (within_len.costs (Nat.le_refl w) (Nat.le_refl _)) fun w' n' x hx => ?_
      have := numChunks_le hk hx.2.2
      rw [h0] at this
      rw [show numChunks x k = 0 by omega]
      trivial
    · have : lenWork w M + ((M + k - 1) / k) * 5 = 5 + (M - w) + (((M + k - 1) / k) * 5 - 1) := by unfold lenWork; omega
      rw [this]
      refine Costs.bind (costs_len _) fun w' n' x hx => ?_
      refine costs_chunkLoop _ _ _ ?_
      have := numChunks_le hk hx.2.1
      rw [List.length_range]
      omega
  · trivial

theorem costs_mutHandle (m : MutMode) (hs : s = true → m = .tryOnce) (i N : Nat) :
    Costs s M (CVec.mutHandle m i : Prog α (Option Nat)) w (5 + (M - w) + (N + 2)) fun w' n' _ => w ≤ w' ∧ M - w' + N ≤ n' := by
  refine Costs.bind (costs_len _) fun w' n' x hx => ?_
  split
  · refine Costs.bind ((within_colGet i).costs (Nat.le_refl w') (by omega : 1 ≤ n')) fun w2 n2 y h2 => ?_
    split
    · have hl : ∀ e, Within s w2 M ((match m with
        | .spinning => COpt.lock e
        | .tryOnce => COpt.tryLock e) : Prog α Bool) 1 fun _ => True := by
        intro e
        cases m with
        | spinning =>
          cases s with
          | true => exact absurd (hs rfl) (by simp)
          | false => exact within_lock _
        | tryOnce => exact within_tryLock _
      refine Costs.bind ((hl _).costs (Nat.le_refl w2) (by omega : 1 ≤ n2)) fun w3 n3 ok h3 => ?_
      exact ⟨by omega, by omega⟩
    · exact ⟨by omega, by omega⟩
  · exact ⟨hx.1, by omega⟩

theorem within_mutHandle (m : MutMode) (hs : s = true → m = .tryOnce) (i : Nat) :
    Within s w M (CVec.mutHandle m i : Prog α (Option Nat)) (lenWork w M + 2) fun _ => True := by
  refine Within.seq (lenWork w M) 2 within_len (fun x hx => ?_) (by omega)
  try dsimp only
  split
  · refine Within.seq 1 1 (within_colGet i) (fun y _ => ?_) (by omega)
    try dsimp only
    split
    · refine Within.seq (Q := fun _ => True) 1 0 ?_ (fun _ _ => trivial) (by omega)
      · cases m with
        | spinning =>
          cases s with
          | true => exact absurd (hs rfl) (by simp)
          | false => exact within_lock _
        | tryOnce => exact within_tryLock _
    · trivial
  · trivial

theorem costs_swap (m : MutMode) (hs : s = true → m = .tryOnce) (i j : Nat) :
    Costs s M (CVec.swap m i j : Prog α Bool) w (lenWork w M + 5 + 2 * 2 + 3) fun _ _ _ => True := by
  have : lenWork w M + 5 + 2 * 2 + 3 = 5 + (M - w) + (9 + 2) := by unfold lenWork; omega
  rw [this]
  refine Costs.bind (costs_mutHandle m hs i _) fun w' n' x hx => ?_
  refine Costs.bind ((within_mutHandle m hs j).costs (Nat.le_refl w') (by unfold lenWork; omega : lenWork w' M + 2 ≤ n')) fun w2 n2 y hy => ?_
  have h3 : 3 ≤ n2 := by have := hy.2.1; unfold lenWork at this; omega
  refine Within.costs' (n := 3) (Q := fun _ => True) ?_ h3
  split
  · refine Within.seq 1 2 (within_act _) (fun _ _ => ?_) (by omega)
    refine Within.seq 1 1 (within_unlock _) (fun _ _ => ?_) (by omega)
    exact Within.seq 1 0 (within_unlock _) (fun _ _ => trivial) (by omega)
  · exact Within.seq 1 2 (within_unlock _) (fun _ _ => trivial) (by omega)
  · exact Within.seq 1 2 (within_unlock _) (fun _ _ => trivial) (by omega)
  · trivial

theorem costs_slcSwap (m : MutMode) (hs : s = true → m = .tryOnce) (t : Slc) (i j : Nat) :
    Costs s M (t.swap m i j : Prog α Bool) w (lenWork w M + 5 + 2 * 2 + 3) fun _ _ _ => True := by
  unfold Slc.swap
  split
  · exact costs_swap m hs _ _
  · trivial

/-! ### all functions -/

theorem Within.map' {p : Prog α ρ} {g : ρ → ρ'} (h : Within s w M p n Q) : Within s w M (g <$> p) n fun _ => True :=
  Within.map (h.mono (Nat.le_refl _) fun _ _ => trivial)

theorem costs_prog_strict (op : Op α β) (h : ¬ op.MayWait) : Costs true M op.prog w (op.work w M) fun _ _ _ => True := by
  cases op with
  | push | pushForIdx | extend | extendN | extendForIdx => exact absurd trivial h
  | len => exact within_len.map'.costs' (Nat.le_refl _)
  | isEmpty => exact Within.costs' (Within.map (Within.seq (lenWork w M) 0 within_len (fun _ _ => trivial) (Nat.le_refl _))) (Nat.le_refl _)
  | capacity => exact (within_act _).map'.costs' (Nat.le_refl _)
  | maximumCapacity => exact (within_act _).map'.costs' (Nat.le_refl _)
  | get i => exact (within_get i).map.costs' (Nat.le_refl _)
  | index i => exact (within_index i).map.costs' (Nat.le_refl _)
  | iter => exact within_iter.map'.costs' (Nat.le_refl _)
  | slice r => exact (within_slice r).map'.costs' (Nat.le_refl _)
  | asSlice => exact (costs_asSlice 0).map
  | splitAt mid => exact (costs_splitAt mid).map
  | splitFirst => exact costs_splitFirst.map
  | splitLast => exact costs_splitLast.map
  | chunks k => exact (costs_chunks k).map
  | getRaw o i => exact (within_getRaw o i).map.costs' (Nat.le_refl _)
  | iterRef o => exact (within_iterRef o).map.costs' (Nat.le_refl _)
  | swap m i j =>
    cases m with
    | spinning => exact absurd trivial h
    | tryOnce => exact (costs_swap _ (fun _ => rfl) i j).map
  | slSwap m t i j =>
    cases m with
    | spinning => exact absurd trivial h
    | tryOnce => exact (costs_slcSwap _ (fun _ => rfl) t i j).map
  | slLen | slIsEmpty | slIter | slSlice => trivial
  | slGet t i => exact (within_slcGet t i).map.costs' (Nat.le_refl _)
  | slIndex t i => exact (within_slcIndex t i).map.costs' (Nat.le_refl _)
  | slSplitAt t mid => exact (within_slcSplitAt t mid).map.costs' (Nat.le_refl _)
  | slSplitFirst t => exact (within_slcSplitFirst t).map.costs' (Nat.le_refl _)
  | slSplitLast t => exact (within_slcSplitLast t).map.costs' (Nat.le_refl _)
  | slChunks t k => exact (within_slcChunks t k).map.costs' (Nat.le_refl _)
  | slGetRaw t o i => exact (within_slcGetRaw t o i).map.costs' (Nat.le_refl _)
  | slIterRef t o => exact Within.costs' (Within.map ((within_rawRefs o _).mono (by unfold Slc.iter; rw [List.length_range']; exact Nat.le_refl _) fun _ h => h)) (Nat.le_refl _)
  | deref e => exact (within_act _).map'.costs' (Nat.le_refl _)
  | _ => exact absurd trivial h

theorem costs_prog (op : Op α β) : Costs false M op.prog w (op.work w M) fun _ _ _ => True := by
  cases op with
  | push v => exact (within_push v).map.costs' (Nat.le_refl _)
  | pushForIdx f => exact (within_pushForIdx f).map.costs' (Nat.le_refl _)
  | extend it => exact (within_extendN _ _).map.costs' (Nat.le_refl _)
  | extendN items k => exact (within_extendN _ _).map.costs' (Nat.le_refl _)
  | extendForIdx f k => exact (within_extendForIdx f k).map.costs' (Nat.le_refl _)
  | getCloned i => exact (within_getCloned i).map.costs' (Nat.le_refl _)
  | iterCloned => exact (within_over within_loopCloned).map.costs' (Nat.le_refl _)
  | map f => exact (within_over (within_loopMap f)).map.costs' (Nat.le_refl _)
  | filter f => exact (within_over (within_loopFilter f)).map.costs' (Nat.le_refl _)
  | fold f b => exact (within_over (within_loopFold f b)).map.costs' (Nat.le_refl _)
  | visit f b => exact (within_over (within_loopVisit f b)).map.costs' (Nat.le_refl _)
  | reduce f => exact (costs_overSlice fun _ => within_loopReduce f).map
  | indexOf veq v => exact (within_over (within_loopPosition veq v 0)).map.costs' (Nat.le_refl _)
  | contains veq v =>
    exact Within.costs' (Within.map (Within.seq (lenWork w M + 3 * M) 0 (within_over (within_loopPosition veq v 0)) (fun _ _ => trivial) (Nat.le_refl _))) (Nat.le_refl _)
  | cloneToVec => exact (costs_overSlice fun _ => within_loopCloned).map
  | eqList veq vs =>
    exact Within.costs' (Within.map (Within.seq (lenWork w M) (3 * min M vs.length) within_iter
      (fun es hes => (within_loopEqList veq es vs).mono (by omega) fun _ h => h) (Nat.le_refl _))) (Nat.le_refl _)
  | debug sh => exact (within_over (within_loopDebug sh)).map.costs' (Nat.le_refl _)
  | fill v => exact (within_over (within_loopFill v)).map.costs' (Nat.le_refl _)
  | fillWith f => exact (within_over (within_loopFillWith f 0)).map.costs' (Nat.le_refl _)
  | swap m i j => exact (costs_swap m (by intro h; cases h) i j).map
  | slSwap m t i j => exact (costs_slcSwap m (by intro h; cases h) t i j).map
  | elCloned e => exact (within_cloned e).map.costs' (Nat.le_refl _)
  | elMap f e => exact (within_map f e).map.costs' (Nat.le_refl _)
  | elReplace e v => exact (within_replace e v).map.costs' (Nat.le_refl _)
  | elSet e v => exact (within_set e v).map.costs' (Nat.le_refl _)
  | elUpdate f e => exact (within_update f e).map.costs' (Nat.le_refl _)
  | elEq veq v e => exact (within_map _ e).map.costs' (Nat.le_refl _)
  | slGetCloned t i => exact (within_slcGetCloned t i).map.costs' (Nat.le_refl _)
  | slIterCloned t => exact (within_slc within_loopCloned t).map.costs' (Nat.le_refl _)
  | slMap t f => exact (within_slc (within_loopMap f) t).map.costs' (Nat.le_refl _)
  | slFilter t f => exact (within_slc (within_loopFilter f) t).map.costs' (Nat.le_refl _)
  | slFold t f b => exact (within_slc (within_loopFold f b) t).map.costs' (Nat.le_refl _)
  | slVisit t f b => exact (within_slc (within_loopVisit f b) t).map.costs' (Nat.le_refl _)
  | slReduce t f => exact (within_slc (within_loopReduce f) t).map.costs' (Nat.le_refl _)
  | slIndexOf t veq v => exact (within_slc (within_loopPosition veq v 0) t).map.costs' (Nat.le_refl _)
  | slContains t veq v =>
    exact Within.costs' (Within.map (Within.seq (3 * t.len) 0 (within_slc (within_loopPosition veq v 0) t) (fun _ _ => trivial) (Nat.le_refl _))) (Nat.le_refl _)
  | slEqList t veq vs =>
    exact Within.costs' (Within.map ((within_loopEqList veq t.iter vs).mono (by unfold Slc.iter; rw [List.length_range']; exact Nat.le_refl _) fun _ h => h)) (Nat.le_refl _)
  | slDebug t sh => exact (within_slc (within_loopDebug sh) t).map.costs' (Nat.le_refl _)
  | slFill t v => exact (within_slc (within_loopFill v) t).map.costs' (Nat.le_refl _)
  | slFillWith t f => exact (within_slc (within_loopFillWith f 0) t).map.costs' (Nat.le_refl _)
  | _ =>
    refine (costs_prog_strict _ ?_).weaken
    simp only [Op.MayWait, Op.Locks, not_false_eq_true]

end Verif
