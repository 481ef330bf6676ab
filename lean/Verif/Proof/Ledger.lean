import Mathlib.Data.List.Nodup
import Verif.Weak.SpecValues
import Verif.Spec.Ledger
import Verif.Spec.Accesses
import Verif.Proof.Trace

/-!
# Who has which values

Helper file (no property statements).
-/

namespace Verif

variable {α β : Type}

/-! ## The values moved by events -/

/-- Values put into the vector. -/
def Ev.news : Ev α → List α
  | .publish _ _ v => [v]
  | .write _ _ _ v => [v]
  | _ => []

/-- Values removed from the vector. -/
def Ev.olds : Ev α → List α
  | .write _ _ u _ => [u]
  | _ => []

theorem filterMap_congr' {γ δ : Type} {f g : γ → Option δ} {L : List γ} (h : ∀ x ∈ L, f x = g x) : L.filterMap f = L.filterMap g := by
  induction L with
  | nil => rfl
  | cons a L ih =>
    rw [List.filterMap_cons, List.filterMap_cons, h a (by simp), ih fun x hx => h x (by simp [hx])]

theorem flatMap_congr' {γ δ : Type} {f g : γ → List δ} {L : List γ} (h : ∀ x ∈ L, f x = g x) : L.flatMap f = L.flatMap g := by
  induction L with
  | nil => rfl
  | cons a L ih =>
    rw [List.flatMap_cons, List.flatMap_cons, h a (by simp), ih fun x hx => h x (by simp [hx])]

theorem filterMap_split {L : List Nat} {i : Nat} (hi : i ∈ L) (f : Nat → Option α) :
    (L.filterMap f).Perm ((f i).toList ++ (L.erase i).filterMap f) := by
  have h := (List.perm_cons_erase hi).filterMap f
  rw [List.filterMap_cons] at h
  cases hf : f i with
  | none => rw [hf] at h; exact h
  | some v => rw [hf] at h; exact h

theorem filterMap_upd {L : List Nat} (hd : L.Nodup) {i : Nat} (hi : i ∈ L) (f : Nat → Option α) (o : Option α) :
    (L.filterMap (upd f i o)).Perm (o.toList ++ (L.erase i).filterMap f) := by
  have h := filterMap_split hi (upd f i o)
  rw [upd_same] at h
  have : (L.erase i).filterMap (upd f i o) = (L.erase i).filterMap f := by
    refine filterMap_congr' fun j hj => ?_
    have : j ≠ i := fun e => by subst e; exact (hd.mem_erase_iff.1 hj).1 rfl
    rw [upd_other _ _ this]
  rwa [this] at h

theorem ofList_below {l : List α} {N : Nat} (h : ∀ i, N ≤ i → l[i]? = none) : valuesBelow N (fun i => l[i]?) = l := by
  have hN : l.length ≤ N := by
    have := h N (Nat.le_refl N)
    simpa using this
  unfold valuesBelow
  clear h
  induction N generalizing l with
  | zero =>
    cases l with
    | nil => rfl
    | cons a l => simp at hN
  | succ N ih =>
    cases l with
    | nil => simp [List.filterMap_eq_nil_iff]
    | cons a l =>
      rw [List.range_succ_eq_map, List.filterMap_cons, List.filterMap_map]
      simp only [List.getElem?_cons_zero]
      congr 1
      exact ih (by simpa using hN)

theorem Replay.balanced {l : List α} {t : List (Ev α)} {σ : SpecSt α} (h : Replay (.ofList l) t σ) {N : Nat}
    (hN : ∀ i, N ≤ i → σ.val i = none) :
    (l ++ t.flatMap Ev.news).Perm (valuesBelow N σ.val ++ t.flatMap Ev.olds) := by
  induction h with
  | nil =>
    have : valuesBelow N (SpecSt.ofList l).val = l := ofList_below hN
    simp [this]
  | @snoc t σ e hr hok ih =>
    simp only [List.flatMap_append, List.flatMap_cons, List.flatMap_nil, List.append_nil]
    have hnd := List.nodup_range (n := N)
    have hlt : ∀ {i : Nat}, (∃ v, (specNext σ e).val i = some v) → i ∈ List.range N := by
      rintro i ⟨v, hv⟩
      refine List.mem_range.2 (Nat.lt_of_not_le fun hle => ?_)
      rw [hN i hle] at hv; cases hv
    cases e with
    | publish c i v =>
      have hi := hlt (i := i) ⟨v, by simp [specNext]⟩
      have h0 : σ.val i = none := hok.2.2
      have ih := ih fun j hj => by
        have := hN j hj
        simp only [specNext, upd_apply] at this
        split at this
        · cases this
        · exact this
      have h1 := filterMap_split hi σ.val
      have h2 := filterMap_upd hnd hi σ.val (some v)
      rw [h0] at h1
      simp only [Option.toList_none, List.nil_append, Option.toList_some] at h1 h2
      simp only [Ev.news, Ev.olds, specNext, valuesBelow, List.append_nil] at ih ⊢
      rw [← List.append_assoc]
      refine (ih.append_right _).trans ?_
      refine ((h1.append_right _).append_right _).trans (.trans ?_ (h2.append_right _).symm)
      exact List.perm_append_comm
    | write c i u v =>
      have hi := hlt (i := i) ⟨v, by simp [specNext]⟩
      have h0 : σ.val i = some u := hok
      have ih := ih fun j hj => by
        have := hN j hj
        simp only [specNext, upd_apply] at this
        split at this
        · cases this
        · exact this
      have h1 := filterMap_split hi σ.val
      have h2 := filterMap_upd hnd hi σ.val (some v)
      rw [h0] at h1
      simp only [Option.toList_some] at h1 h2
      simp only [Ev.news, Ev.olds, specNext, valuesBelow] at ih ⊢
      rw [← List.append_assoc]
      refine (ih.append_right _).trans ?_
      refine ((h1.append_right _).append_right _).trans (.trans ?_ (h2.append_right _).symm)
      generalize (List.filterMap σ.val ((List.range N).erase i)) = A
      generalize List.flatMap Ev.olds t = B
      refine (List.perm_append_comm (l₁ := ([u] ++ A ++ B)) (l₂ := [v])).trans ?_
      simp only [List.cons_append]
      refine List.Perm.cons v ?_
      refine (List.perm_append_comm (l₁ := [u]) (l₂ := A ++ B)).trans ?_
      simp
    | swap c i j =>
      obtain ⟨hij, hsi, hsj⟩ := hok
      obtain ⟨u, hu⟩ := Option.isSome_iff_exists.1 hsi
      obtain ⟨v, hv⟩ := Option.isSome_iff_exists.1 hsj
      have hj := hlt (i := j) ⟨u, by simp [specNext, hu]⟩
      have hi := hlt (i := i) ⟨v, by simp [specNext, upd_other _ _ hij, hv]⟩
      have ih := ih fun k hk => by
        have := hN k hk
        simp only [specNext, upd_apply, hu, hv] at this
        split at this
        · cases this
        · split at this
          · cases this
          · exact this
      simp only [Ev.news, Ev.olds, specNext, List.append_nil] at ih ⊢
      refine ih.trans (List.Perm.append_right _ ?_)
      have hi' : i ∈ (List.range N).erase j := (hnd.mem_erase_iff).2 ⟨hij, hi⟩
      have h1 := (filterMap_split hj σ.val).trans ((filterMap_split hi' σ.val).append_left _)
      have h2 := (filterMap_upd hnd hj (upd σ.val i (σ.val j)) (σ.val i)).trans
        ((filterMap_upd (hnd.erase j) hi' σ.val (σ.val j)).append_left _)
      refine h1.trans (.trans ?_ h2.symm)
      rw [← List.append_assoc, ← List.append_assoc]
      exact List.perm_append_comm.append_right _
    | reserve c b n => simpa [Ev.news, Ev.olds, specNext] using ih hN
    | read c i v => simpa [Ev.news, Ev.olds, specNext] using ih hN
    | seen c i => simpa [Ev.news, Ev.olds, specNext] using ih hN
    | busy c i d => simpa [Ev.news, Ev.olds, specNext] using ih hN
    | hole c i => simpa [Ev.news, Ev.olds, specNext] using ih hN

/-! ## Sorting the events by calls -/

theorem Replay.bounded {l : List α} {t : List (Ev α)} {σ : SpecSt α} (h : Replay (.ofList l) t σ) :
    ∃ N, ∀ i, N ≤ i → σ.val i = none := by
  induction h with
  | nil => exact ⟨l.length, fun i hi => List.getElem?_eq_none hi⟩
  | @snoc t σ e _ hok ih =>
    obtain ⟨N, hN⟩ := ih
    cases e with
    | publish c i v =>
      refine ⟨max N (i + 1), fun j hj => ?_⟩
      simp only [specNext, upd_apply]
      rw [if_neg (by omega)]
      exact hN j (by omega)
    | write c i u v =>
      refine ⟨max N (i + 1), fun j hj => ?_⟩
      simp only [specNext, upd_apply]
      rw [if_neg (by omega)]
      exact hN j (by omega)
    | swap c i k =>
      refine ⟨max N (max (i + 1) (k + 1)), fun j hj => ?_⟩
      simp only [specNext, upd_apply]
      rw [if_neg (by omega), if_neg (by omega)]
      exact hN j (by omega)
    | _ => exact ⟨N, hN⟩

theorem perm_byCall (t : List (Ev α)) : ∀ n, (t.filter fun e => decide (e.cid < n)).Perm
    ((List.range n).flatMap fun c => t.filter fun e => e.cid == c)
  | 0 => by simp
  | n + 1 => by
    rw [List.range_succ, List.flatMap_append]
    simp only [List.flatMap_cons, List.flatMap_nil, List.append_nil]
    refine .trans ?_ ((perm_byCall t n).append_right _)
    refine (List.filter_append_perm (fun e => decide (e.cid < n)) _).symm.trans ?_
    rw [List.filter_filter, List.filter_filter]
    refine .of_eq (congr (congrArg _ ?_) ?_)
    · refine List.filter_congr fun e _ => ?_
      rw [Bool.eq_iff_iff]
      simp only [Bool.and_eq_true, decide_eq_true_eq]
      exact ⟨fun h => h.1, fun h => ⟨h, Nat.lt_succ_of_lt h⟩⟩
    · refine List.filter_congr fun e _ => ?_
      rw [Bool.eq_iff_iff]
      simp only [Bool.and_eq_true, Bool.not_eq_true', decide_eq_false_iff_not, decide_eq_true_eq, beq_iff_eq]
      constructor
      · rintro ⟨h1, h2⟩
        exact Nat.le_antisymm (Nat.le_of_lt_succ h2) (Nat.le_of_not_lt h1)
      · intro h
        rw [h]
        exact ⟨Nat.lt_irrefl n, Nat.lt_succ_self n⟩

theorem flatMap_byCall {f : Ev α → List α} (hf : ∀ e, e.isData = false → f e = []) {t : List (Ev α)} {n : Nat}
    (ht : ∀ e ∈ t, e.cid < n) : (t.flatMap f).Perm ((List.range n).flatMap fun c => (dataOf c t).flatMap f) := by
  have h0 : t.filter (fun e => decide (e.cid < n)) = t := List.filter_eq_self.2 fun e he => by simpa using ht e he
  have h1 := (perm_byCall t n).flatMap_right f
  rw [h0, List.flatMap_assoc] at h1
  refine h1.trans (.of_eq (flatMap_congr' fun c _ => ?_))
  unfold dataOf
  clear h0 h1 ht
  induction t with
  | nil => rfl
  | cons e t ih =>
    cases hc : (e.cid == c) <;> cases hd : e.isData <;> simp [hc, hd, ih, hf]

/-! ## The values moved by calls -/

theorem news_reads (c : Cid) : ∀ (a : Nat) (vs : List α), (reads c a vs).flatMap Ev.news = [] ∧ (reads c a vs).flatMap Ev.olds = []
  | _, [] => ⟨rfl, rfl⟩
  | a, v :: vs => by simpa [reads, Ev.news, Ev.olds] using news_reads c (a + 1) vs

theorem news_pubs (c : Cid) : ∀ (a : Nat) (vs : List α), (pubs c a vs).flatMap Ev.news = vs ∧ (pubs c a vs).flatMap Ev.olds = []
  | _, [] => ⟨rfl, rfl⟩
  | a, v :: vs => by
    have := news_pubs c (a + 1) vs
    simp [pubs, Ev.news, Ev.olds, this]

theorem news_writes (c : Cid) : ∀ (a : Nat) (ps : List (α × α)), (writes c a ps).flatMap Ev.news = ps.map Prod.snd ∧
    (writes c a ps).flatMap Ev.olds = ps.map Prod.fst
  | _, [] => ⟨rfl, rfl⟩
  | a, p :: ps => by
    have := news_writes c (a + 1) ps
    simp [writes, Ev.news, Ev.olds, this]

/-- The account of a call with these events. -/
def Op.entry (d : List (Ev α)) : Op α β → Entry α
  | .elReplace _ _ => ⟨d.flatMap Ev.news, d.flatMap Ev.olds, []⟩
  | _ => ⟨d.flatMap Ev.news, [], d.flatMap Ev.olds⟩

theorem Op.entry_given (d : List (Ev α)) (op : Op α β) : (op.entry d).given = d.flatMap Ev.news := by
  cases op <;> rfl

theorem Op.entry_out (d : List (Ev α)) (op : Op α β) :
    ((op.entry d).taken ++ (op.entry d).gone).Perm (d.flatMap Ev.olds) := by
  cases op <;> simp [Op.entry]

theorem Op.Outcome.explains {c : Cid} {w0 w : World α} {d : List (Ev α)} {x : Ret α β} {op : Op α β}
    (h : op.Outcome c w0 w d x) : op.Explains c 0 d x := by
  cases op <;> simp only [Op.Outcome, OutGrow] at h <;> simp only [Op.Explains, Grew] <;> grind

theorem FailGrow.partly {c : Cid} {w0 w : World α} {items : List (Option α)} {n : Nat} {U : Nat → Prop} {d : List (Ev α)}
    {k : PanicKind} {b : Nat} (h : FailGrow c w0 w items n U d k b) : PartlyGrew c items n d b := by
  obtain ⟨-, -, vs, hd, hlt, -, hk⟩ := h
  refine ⟨vs, hlt, ?_, hd⟩
  rcases hk with ⟨-, rfl, -⟩ | ⟨-, -, rfl⟩ | ⟨-, -, rest, rfl⟩
  · exact List.nil_prefix
  · exact List.prefix_rfl
  · exact List.prefix_append _ _

theorem Op.Failure.explains {c : Cid} {w0 w : World α} {U : Nat → Prop} {d : List (Ev α)} {k : PanicKind} {op : Op α β}
    (h : op.Failure c w0 w U d k) : op.ExplainsPanic c d := by
  cases op
  case extend it => obtain ⟨b, h⟩ := h; exact ⟨b, h.partly⟩
  case extendN items n => obtain ⟨b, h⟩ := h; exact ⟨b, h.partly⟩
  case extendForIdx f n =>
    obtain ⟨b, ⟨rfl, h⟩ | ⟨it, h1, h2, h3⟩ | ⟨-, h, -⟩⟩ := h
    · obtain ⟨-, -, vs, hd, -, -, ⟨-, rfl, -⟩ | ⟨hk, -⟩ | ⟨hk, -⟩⟩ := h
      · exact ⟨b, .inl hd⟩
      · cases hk
      · cases hk
    · exact ⟨b, .inr ⟨it, h1, h2, h3.partly⟩⟩
    · exact ⟨b, .inl h⟩
  all_goals simp only [Op.Failure] at h <;> simp only [Op.ExplainsPanic] <;> grind

theorem Op.Explains.moved {c : Cid} {lo : Nat} {d : List (Ev α)} {x : Ret α β} {op : Op α β} (h : op.Explains c lo d x) :
    op.Moved x (op.entry d) := by
  have hreads : ∀ {a : Nat} {vs : List α}, d = reads c a vs → d.flatMap Ev.news = [] ∧ d.flatMap Ev.olds = [] := by
    rintro a vs rfl; exact news_reads c a vs
  have hgrew : ∀ {items : List (Option α)} {n b : Nat}, Grew c items n d b →
      ∃ vs, vs.length = n ∧ vs.map some <+: items ∧ d.flatMap Ev.news = vs ∧ d.flatMap Ev.olds = [] := by
    rintro items n b ⟨vs, rest, h1, rfl, rfl⟩
    refine ⟨vs, h1, List.prefix_append _ _, ?_⟩
    simpa [Ev.news, Ev.olds] using news_pubs c b vs
  have hwr : ∀ {a : Nat} {ps : List (α × α)}, d = writes c a ps → d.flatMap Ev.news = ps.map Prod.snd ∧ d.flatMap Ev.olds = ps.map Prod.fst := by
    rintro a ps rfl; exact news_writes c a ps
  cases op
  case push v => obtain ⟨i, -, rfl⟩ := h; simp [Op.Moved, Op.entry, Ev.news, Ev.olds]
  case pushForIdx f => obtain ⟨i, v, hx, hf, rfl⟩ := h; exact ⟨i, v, hx, hf, rfl⟩
  case extend it =>
    obtain ⟨b, -, h⟩ := h
    obtain ⟨vs, h1, h2, h3, h4⟩ := hgrew h
    exact ⟨vs, h1, h2, by simp [Op.entry, h3, h4]⟩
  case extendN items n =>
    obtain ⟨b, -, h⟩ := h
    obtain ⟨vs, h1, h2, h3, h4⟩ := hgrew h
    exact ⟨vs, h1, h2, by simp [Op.entry, h3, h4]⟩
  case extendForIdx f n =>
    obtain ⟨b, it, hx, hf, -, h⟩ := h
    obtain ⟨vs, h1, h2, h3, h4⟩ := hgrew h
    exact ⟨b, it, vs, hx, hf, h1, h2, by simp [Op.entry, h3, h4]⟩
  case elReplace i v => obtain ⟨u, hx, rfl⟩ := h; exact ⟨u, hx, rfl⟩
  case elSet i v => obtain ⟨u, -, rfl⟩ := h; exact ⟨u, rfl⟩
  case elUpdate f i => obtain ⟨u, -, hf, rfl⟩ := h; exact ⟨u, hf, rfl⟩
  case fill v =>
    obtain ⟨n, -, -, us, h1, h2⟩ := h
    have := hwr h2
    refine ⟨us, ?_⟩
    simp [Op.entry, this, Function.comp_def]
  case slFill s v =>
    obtain ⟨-, us, h1, h2⟩ := h
    have := hwr h2
    refine ⟨us, h1, ?_⟩
    simp [Op.entry, this, Function.comp_def]
  case fillWith f =>
    obtain ⟨n, -, -, ps, h1, h2, h3⟩ := h
    have := hwr h2
    refine ⟨ps.map Prod.fst, ps.map Prod.snd, by simp, ?_, by simp [Op.entry, this]⟩
    intro j hj
    have hj' : j < ps.length := by simpa using hj
    rw [h3 j hj']
    simp [hj']
  case slFillWith s f =>
    obtain ⟨-, ps, h1, h2, h3⟩ := h
    have := hwr h2
    refine ⟨ps.map Prod.fst, ps.map Prod.snd, by simpa using h1, by simpa using h1, ?_, by simp [Op.entry, this]⟩
    intro j hj
    have hj' : j < ps.length := by simpa using hj
    rw [h3 j hj']
    simp [hj']
  all_goals
    have key : d.flatMap Ev.news = [] ∧ d.flatMap Ev.olds = [] := by
      simp only [Op.Explains, OutMap, OutFilter, OutFold, OutVisit, OutReduce, OutPosition, OutEq] at h
      have hnil : d = [] → d.flatMap Ev.news = [] ∧ d.flatMap Ev.olds = [] := by rintro rfl; exact ⟨rfl, rfl⟩
      have hrd : ∀ {i v}, d = [.read c i v] → d.flatMap Ev.news = [] ∧ d.flatMap Ev.olds = [] := by rintro i v rfl; exact ⟨rfl, rfl⟩
      have hsw : ∀ {i j}, d = [.swap c i j] → d.flatMap Ev.news = [] ∧ d.flatMap Ev.olds = [] := by rintro i v rfl; exact ⟨rfl, rfl⟩
      grind
    simp [Op.Moved, Op.entry, Entry.none, key.1, key.2]

theorem Op.ExplainsPanic.moved {c : Cid} {d : List (Ev α)} {op : Op α β} (h : op.ExplainsPanic c d) :
    op.MovedPanic (op.entry d) := by
  have hgrew : ∀ {items : List (Option α)} {n b : Nat}, PartlyGrew c items n d b →
      ∃ vs, vs.length < n ∧ vs.map some <+: items ∧ d.flatMap Ev.news = vs ∧ d.flatMap Ev.olds = [] := by
    rintro items n b ⟨vs, h1, h2, rfl⟩
    refine ⟨vs, h1, h2, ?_⟩
    simpa [Ev.news, Ev.olds] using news_pubs c b vs
  have hreads : ∀ {a : Nat} {vs : List α}, d = reads c a vs → d.flatMap Ev.news = [] ∧ d.flatMap Ev.olds = [] := by
    rintro a vs rfl; exact news_reads c a vs
  have hwr : ∀ {a : Nat} {ps : List (α × α)}, d = writes c a ps → d.flatMap Ev.news = ps.map Prod.snd ∧ d.flatMap Ev.olds = ps.map Prod.fst := by
    rintro a ps rfl; exact news_writes c a ps
  cases op
  case extend it =>
    obtain ⟨b, h⟩ := h
    obtain ⟨vs, h1, h2, h3, h4⟩ := hgrew h
    exact ⟨vs, h1, h2, by simp [Op.entry, h3, h4]⟩
  case extendN items n =>
    obtain ⟨b, h⟩ := h
    obtain ⟨vs, h1, h2, h3, h4⟩ := hgrew h
    exact ⟨vs, h1, h2, by simp [Op.entry, h3, h4]⟩
  case extendForIdx f n =>
    obtain ⟨b, rfl | ⟨it, hf, -, h⟩⟩ := h
    · exact .inl rfl
    · obtain ⟨vs, h1, h2, h3, h4⟩ := hgrew h
      exact .inr ⟨b, it, vs, hf, h1, h2, by simp [Op.entry, h3, h4]⟩
  case elUpdate f i => obtain ⟨u, hf, rfl⟩ := h; exact ⟨u, hf, rfl⟩
  case fillWith f =>
    obtain ⟨n, ps, h1, h2, h3, h4⟩ := h
    have := hwr h2
    refine ⟨ps.map Prod.fst, ps.map Prod.snd, by simp, ?_, by simpa using h4, by simp [Op.entry, this]⟩
    intro j hj
    have hj' : j < ps.length := by simpa using hj
    rw [h3 j hj']
    simp [hj']
  case slFillWith s f =>
    obtain ⟨ps, h1, h2, h3, h4⟩ := h
    have := hwr h2
    refine ⟨ps.map Prod.fst, ps.map Prod.snd, by simp, by simpa using h1, ?_, by simpa using h4, by simp [Op.entry, this]⟩
    intro j hj
    have hj' : j < ps.length := by simpa using hj
    rw [h3 j hj']
    simp [hj']
  all_goals
    have key : d.flatMap Ev.news = [] ∧ d.flatMap Ev.olds = [] := by
      simp only [Op.ExplainsPanic, FailMap, FailFold, FailVisit, FailReduce, FailEq] at h
      have hnil : d = [] → d.flatMap Ev.news = [] ∧ d.flatMap Ev.olds = [] := by rintro rfl; exact ⟨rfl, rfl⟩
      have hrd : ∀ {i v}, d = [.read c i v] → d.flatMap Ev.news = [] ∧ d.flatMap Ev.olds = [] := by rintro i v rfl; exact ⟨rfl, rfl⟩
      have hres : ∀ {i n}, d = [.reserve c i n] → d.flatMap Ev.news = [] ∧ d.flatMap Ev.olds = [] := by rintro i v rfl; exact ⟨rfl, rfl⟩
      grind
    simp [Op.MovedPanic, Op.entry, Entry.none, key.1, key.2]

/-- The events of a call that moves nothing. -/
theorem Op.Allows.nothing {op : Op α β} {d : List (Ev α)} {e : Ev α} (h : op.Allows d e) (hn : op.MovesNothing) :
    e.news = [] ∧ e.olds = [] := by
  cases e with
  | publish c i v => cases op <;> simp only [Op.Allows, Op.MovesNothing] at h hn
  | write c i u v => cases op <;> simp only [Op.Allows, Op.MovesNothing] at h hn
  | _ => exact ⟨rfl, rfl⟩

/-- The accounts add up. -/
theorem Replay.book {l : List α} {t : List (Ev α)} {σ : SpecSt α} (h : Replay (.ofList l) t σ) {n N : Nat}
    (ht : ∀ e ∈ t, e.cid < n) (hN : ∀ i, N ≤ i → σ.val i = none) (ops : Cid → Option (Op α β)) (hops : ∀ e ∈ t, (ops e.cid).isSome) :
    Balanced l n (fun c => match ops c with | some op => op.entry (dataOf c t) | none => .none) (valuesBelow N σ.val) := by
  have h0 := h.balanced hN
  have hnews : ∀ e : Ev α, e.isData = false → e.news = [] := by intro e he; cases e <;> first | rfl | cases he
  have holds : ∀ e : Ev α, e.isData = false → e.olds = [] := by intro e he; cases e <;> first | rfl | cases he
  have hnone : ∀ c, ops c = none → dataOf c t = [] := by
    intro c hc
    rcases hd : dataOf c t with _ | ⟨e, d⟩
    · rfl
    · have : e ∈ dataOf c t := by rw [hd]; simp
      obtain ⟨h1, -, h3⟩ := mem_dataOf.1 this
      have := hops e h1
      rw [h3, hc] at this
      cases this
  unfold Balanced
  refine .trans (.append_left _ ?_) (h0.trans (.trans (.append_left _ (flatMap_byCall holds ht)) ?_))
  · refine .trans (.of_eq (flatMap_congr' fun c _ => ?_)) (flatMap_byCall hnews ht).symm
    beta_reduce
    cases hc : ops c with
    | none => rw [hnone c hc]; rfl
    | some op => exact op.entry_given _
  · rw [List.append_assoc]
    refine .append_left _ ?_
    clear h0 ht hN
    induction n with
    | zero => simp
    | succ n ih =>
      rw [List.range_succ, List.flatMap_append, List.flatMap_append, List.flatMap_append]
      simp only [List.flatMap_cons, List.flatMap_nil, List.append_nil]
      refine (ih.append_right _).trans ?_
      have hone : ((dataOf n t).flatMap Ev.olds).Perm
          ((match ops n with | some op => op.entry (dataOf n t) | none => Entry.none).taken ++
           (match ops n with | some op => op.entry (dataOf n t) | none => Entry.none).gone) := by
        cases hc : ops n with
        | none => rw [hnone n hc]; exact .refl _
        | some op => exact (op.entry_out _).symm
      refine (hone.append_left _).trans ?_
      simp only [List.append_assoc]
      refine .append_left _ ?_
      rw [← List.append_assoc, ← List.append_assoc]
      exact List.perm_append_comm.append_right _

theorem Op.entry_none {op : Op α β} {d : List (Ev α)} (h : ∀ e ∈ d, e.news = [] ∧ e.olds = []) : op.entry d = .none := by
  have h1 : d.flatMap Ev.news = [] := List.flatMap_eq_nil_iff.2 fun e he => (h e he).1
  have h2 : d.flatMap Ev.olds = [] := List.flatMap_eq_nil_iff.2 fun e he => (h e he).2
  cases op <;> simp [Op.entry, Entry.none, h1, h2]

theorem CfgInv.book {l : List α} {κ : Cfg α β} (h : CfgInv (.ofList l) κ) (hs : κ.Settled) {n N : Nat}
    (hn : ∀ c op, κ.Called c op → c < n) (hN : ∀ i, N ≤ i → κ.content i = none) :
    ∃ book, Recorded κ.Returned κ.Panicked book ∧ Balanced l n book (valuesBelow N κ.content) := by
  have hev : ∀ e ∈ κ.w.trace, ∃ r, κ.calls e.cid = some r := by
    intro e he
    obtain ⟨t1, t2, ht⟩ := List.append_of_mem he
    obtain ⟨r, hr, -⟩ := h.events t1 e t2 ht
    exact ⟨r, hr⟩
  have hval : κ.w.spec.val = κ.content := by funext i; exact (h.content_eq i).symm
  refine ⟨fun c => match (κ.calls c).map Rec.op with | some op => op.entry (dataOf c κ.w.trace) | none => .none, ⟨?_, ?_, ?_⟩, ?_⟩
  · rintro c op x ⟨ct, st, et, fin, hc⟩
    obtain ⟨d, hd⟩ := h.returned hc
    simp only [hc, Option.map_some, hd.data]
    exact hd.out.explains.moved
  · rintro c op k ⟨ct, st, et, fin, hc⟩
    obtain ⟨U, d, hd⟩ := h.panicked hc
    simp only [hc, Option.map_some, hd.data]
    exact hd.out.explains.moved
  · intro c h1 h2
    rcases hc : κ.calls c with _ | ⟨op, ct, st, s⟩
    · rfl
    · simp only [Option.map_some]
      have hm : op.MovesNothing := by
        rcases hs c op ⟨_, _, _, hc⟩ with h | ⟨x, h⟩ | ⟨k, h⟩
        · exact h
        · exact absurd h (h1 _ _)
        · exact absurd h (h2 _ _)
      refine Op.entry_none fun e he => ?_
      obtain ⟨d1, d2, hd⟩ := List.append_of_mem he
      exact (h.hist hc hd).nothing hm
  · rw [← hval]
    refine h.inv.replay.book ?_ ?_ _ ?_
    · intro e he
      obtain ⟨⟨op, ct, st, s⟩, hr⟩ := hev e he
      exact hn _ op ⟨_, _, _, hr⟩
    · intro i hi; rw [hval]; exact hN i hi
    · intro e he
      obtain ⟨r, hr⟩ := hev e he
      simp [hr]

/-- Different values stay different. -/
theorem Recorded.unique {l : List α} {called : Cid → Op α β → Prop} {returned : Cid → Op α β → Ret α β → Prop}
    {panicked : Cid → Op α β → PanicKind → Prop} {book : Cid → Entry α} (hb : Recorded returned panicked book)
    (hr : ∀ c op x, returned c op x → called c op) (hp : ∀ c op k, panicked c op k → called c op)
    {n N : Nat} (hn : ∀ c op, called c op → c < n) {val : Nat → Option α} (hN : ∀ i, N ≤ i → val i = none)
    (hbal : Balanced l n book (valuesBelow N val)) (hl : l.Nodup)
    (hall : ∀ c op, called c op → op.MovesNothing ∨ ∃ v, op.Brings v)
    (hnew : ∀ c op v, called c op → op.Brings v → v ∉ l)
    (hone : ∀ c d op op' v, called c op → called d op' → op.Brings v → op'.Brings v → c = d) :
    (∀ i j v, val i = some v → val j = some v → i = j) ∧
    (∀ c d i j v w u, returned c (.elReplace i v) (.val u) → returned d (.elReplace j w) (.val u) → c = d) ∧
    ∀ c i v u, returned c (.elReplace i v) (.val u) → ∀ j, val j ≠ some u := by
  have hgiven : ∀ c, (book c).given = [] ∨ ∃ op v, called c op ∧ op.Brings v ∧ (book c).given = [v] := by
    intro c
    by_cases h1 : ∃ op x, returned c op x
    · obtain ⟨op, x, h1⟩ := h1
      have hm := hb.returned c op x h1
      rcases hall c op (hr _ _ _ h1) with h | ⟨v, h⟩
      · left; cases op <;> simp only [Op.MovesNothing] at h <;> (change book c = .none at hm; rw [hm]; rfl)
      · right
        refine ⟨op, v, hr _ _ _ h1, h, ?_⟩
        cases op <;> simp only [Op.Brings] at h <;> subst h
        · change book c = _ at hm; rw [hm]
        · obtain ⟨u, -, hm⟩ := hm; rw [hm]
        · obtain ⟨u, hm⟩ := hm; rw [hm]
    · by_cases h2 : ∃ op k, panicked c op k
      · obtain ⟨op, k, h2⟩ := h2
        have hm := hb.panicked c op k h2
        left
        rcases hall c op (hp _ _ _ h2) with h | ⟨v, h⟩
        · cases op <;> simp only [Op.MovesNothing] at h <;> (change book c = .none at hm; rw [hm]; rfl)
        · cases op <;> simp only [Op.Brings] at h <;> (change book c = .none at hm; rw [hm]; rfl)
      · left
        rw [hb.other c (fun op x h => h1 ⟨op, x, h⟩) fun op k h => h2 ⟨op, k, h⟩]
        rfl
  have hnd : (l ++ (List.range n).flatMap fun c => (book c).given).Nodup := by
    refine List.nodup_append.2 ⟨hl, ?_, ?_⟩
    · rw [List.nodup_flatMap]
      refine ⟨fun c _ => ?_, ?_⟩
      · rcases hgiven c with h | ⟨op, v, -, -, h⟩ <;> rw [h] <;> simp
      · refine List.nodup_range.imp ?_
        intro c d hcd x hx hy
        change x ∈ (book c).given at hx
        change x ∈ (book d).given at hy
        rcases hgiven c with h | ⟨op, v, h1, h2, h⟩
        · rw [h] at hx; simp at hx
        · rcases hgiven d with h' | ⟨op', v', h1', h2', h'⟩
          · rw [h'] at hy; simp at hy
          · rw [h] at hx; rw [h'] at hy
            simp only [List.mem_cons, List.not_mem_nil, or_false] at hx hy
            subst hx hy
            exact hcd (hone _ _ _ _ _ h1 h1' h2 h2')
    · rintro a ha b hb' rfl
      obtain ⟨c, -, hc⟩ := List.mem_flatMap.1 hb'
      rcases hgiven c with h | ⟨op, v, h1, h2, h⟩
      · rw [h] at hc; simp at hc
      · rw [h] at hc
        simp only [List.mem_cons, List.not_mem_nil, or_false] at hc
        subst hc
        exact hnew _ _ _ h1 h2 ha
  have hnd' := hbal.nodup hnd
  rw [List.append_assoc] at hnd'
  obtain ⟨hv, ht, hdis⟩ := List.nodup_append.1 hnd'
  have htk := (List.nodup_append.1 ht).1
  have htaken : ∀ c i v u, returned c (.elReplace i v) (.val u) → c ∈ List.range n ∧ u ∈ (book c).taken := by
    intro c i v u h
    obtain ⟨u', h1, h2⟩ := hb.returned c _ _ h
    injection h1 with h1
    subst h1
    rw [h2]
    exact ⟨List.mem_range.2 (hn _ _ (hr _ _ _ h)), by simp⟩
  have hlt : ∀ {i v}, val i = some v → i < N := by
    intro i v h
    refine Nat.lt_of_not_le fun hle => ?_
    rw [hN i hle] at h; cases h
  refine ⟨?_, ?_, ?_⟩
  · intro i j v h1 h2
    have key := List.pairwise_filterMap.1 hv
    rcases Nat.lt_trichotomy i j with h | h | h
    · exact absurd rfl (List.pairwise_iff_getElem.1 key i j (by simpa using hlt h1) (by simpa using hlt h2) h v (by simpa using h1) v (by simpa using h2))
    · exact h
    · exact absurd rfl (List.pairwise_iff_getElem.1 key j i (by simpa using hlt h2) (by simpa using hlt h1) h v (by simpa using h2) v (by simpa using h1))
  · intro c d i j v w u h1 h2
    obtain ⟨hc, hu⟩ := htaken _ _ _ _ h1
    obtain ⟨hd, hu'⟩ := htaken _ _ _ _ h2
    refine Classical.byContradiction fun hne => ?_
    have key := List.pairwise_iff_getElem.1 (List.nodup_flatMap.1 htk).2
    have hc' := List.mem_range.1 hc
    have hd' := List.mem_range.1 hd
    rcases Nat.lt_or_gt_of_ne hne with h | h
    · have := key c d (by simpa using hc') (by simpa using hd') h
      simp only [List.getElem_range] at this
      exact this hu hu'
    · have := key d c (by simpa using hd') (by simpa using hc') h
      simp only [List.getElem_range] at this
      exact this hu' hu
  · intro c i v u h j hj
    obtain ⟨hc, hu⟩ := htaken _ _ _ _ h
    refine hdis u ?_ u ?_ rfl
    · exact List.mem_filterMap.2 ⟨j, List.mem_range.2 (hlt hj), hj⟩
    · exact List.mem_append_left _ (List.mem_flatMap.2 ⟨c, hc, hu⟩)

/-! ## Weak memory -/

theorem Weak.Cfg.ExplainedBy.nothing {κ : Weak.Cfg α β} {l : List α} {t : List (Ev α)} (E : κ.ExplainedBy l t) {c : Cid}
    {op : Op α β} (hc : κ.Called c op) (hm : op.MovesNothing) : ∀ e ∈ dataOf c t, e.news = [] ∧ e.olds = [] := by
  intro e he
  obtain ⟨he', -, hcid⟩ := mem_dataOf.1 he
  have hop : ∀ op', κ.Called c op' → op' = op := by
    rintro op' ⟨r, hr, rfl⟩
    obtain ⟨r', hr', rfl⟩ := hc
    rw [hr] at hr'; cases hr'; rfl
  cases e with
  | publish d i v =>
    change d = c at hcid
    subst hcid
    obtain ⟨op', b, n, h1, -, -, h2⟩ := E.published _ _ _ he'
    rw [hop _ h1] at h2
    cases op <;> simp only [Op.Offers, Op.MovesNothing] at h2 hm
  | write d i u v =>
    change d = c at hcid
    subst hcid
    obtain ⟨op', h1, h2⟩ := E.changed _ he'
    have h3 := h2 i rfl
    rw [hop _ h1] at h3
    have hsw : ∃ j k, op.SwapOf j k := by
      cases op <;> simp only [Op.MayWrite, Op.MovesNothing] at h3 hm
      · exact ⟨_, _, rfl, rfl⟩
      · exact ⟨_, _, rfl, rfl⟩
    obtain ⟨j, k, hsw⟩ := hsw
    rcases E.swapped _ _ _ _ hc hsw with h | h <;> rw [h] at he <;> simp at he
  | _ => exact ⟨rfl, rfl⟩

theorem Weak.Cfg.ExplainedBy.book {κ : Weak.Cfg α β} {l : List α} {t : List (Ev α)} (E : κ.ExplainedBy l t) (hs : κ.Settled)
    {n N : Nat} (hn : ∀ c op, κ.Called c op → c < n) (hN : ∀ i, N ≤ i → κ.mem.val i = none) :
    ∃ book, Recorded κ.Returned κ.Panicked book ∧ Balanced l n book (valuesBelow N κ.mem.val) := by
  obtain ⟨σ, hR, hval⟩ := E.replay
  have hev : ∀ e ∈ t, ∃ op, κ.Called e.cid op := by
    intro e he
    obtain ⟨op, hop, -⟩ := E.changed e he
    exact ⟨op, hop⟩
  refine ⟨fun c => match (κ.calls c).map Weak.Rec.op with | some op => op.entry (dataOf c t) | none => .none, ⟨?_, ?_, ?_⟩, ?_⟩
  · rintro c op x ⟨r, hc, rfl, hst⟩
    simp only [hc, Option.map_some]
    exact (E.returned c _ x _ ⟨r, hc, rfl, hst⟩ (.inl rfl)).moved
  · rintro c op k ⟨r, hc, rfl, hst⟩
    simp only [hc, Option.map_some]
    exact (E.panicked c _ k ⟨r, hc, rfl, hst⟩).moved
  · intro c h1 h2
    rcases hc : κ.calls c with _ | r
    · rfl
    · simp only [Option.map_some]
      have hm : r.op.MovesNothing := by
        rcases hs c r.op ⟨_, hc, rfl⟩ with h | ⟨x, h⟩ | ⟨k, h⟩
        · exact h
        · exact absurd h (h1 _ _)
        · exact absurd h (h2 _ _)
      exact Op.entry_none (E.nothing ⟨_, hc, rfl⟩ hm)
  · rw [← hval]
    refine hR.book ?_ ?_ _ ?_
    · intro e he
      obtain ⟨op, hop⟩ := hev e he
      exact hn _ op hop
    · intro i hi; rw [hval]; exact hN i hi
    · intro e he
      obtain ⟨op, r, hr, -⟩ := hev e he
      simp [hr]

end Verif
