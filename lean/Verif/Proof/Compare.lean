import Verif.Proof.CompareElem

/-!
# The invariant of comparisons, for C55
-/

namespace Verif

variable {α β : Type} {m : Nat → Mem α} {l : Nat → List α}

/-! ## Vectors and call identifiers -/

theorem Step.next_le {κ κ' : Cfg α β} (h : Step κ κ') : κ.next ≤ κ'.next := by
  cases h <;> first | exact Nat.le_refl _ | exact Nat.le_succ _

/-- Every vector on its own is used as in `Model/Conc.lean`; different operands use different calls. -/
structure SysInv (m : Nat → Mem α) (l : Nat → List α) (S : Sys α β) : Prop where
  reach : ∀ u, Reach (m u) (l u) (S.vec u)
  ids : ∀ k T s, S.cmp k = some T → T.cid s < (S.vec (T.vecOf s)).next
  distinct : ∀ k T s k' T' s', S.cmp k = some T → S.cmp k' = some T' → ¬ (k = k' ∧ s = s') → T.vecOf s = T'.vecOf s' →
    T.cid s = T'.cid s' → T.cid s = 0

/-- Every vector makes one step or none. -/
def VecStep (S S' : Sys α β) : Prop := ∀ u, S'.vec u = S.vec u ∨ Step (S.vec u) (S'.vec u)

/-- What stays as it is during a comparison. -/
structure Cmp.Keeps (T T' : Cmp α β) : Prop where
  u : T'.u = T.u
  v : T'.v = T.v
  p : T'.p = T.p
  q : T'.q = T.q
  veq : T'.veq = T.veq
  own : ∀ s c, c ∈ T.own s → c ∈ T'.own s

theorem Cmp.Keeps.refl (T : Cmp α β) : T.Keeps T := ⟨rfl, rfl, rfl, rfl, rfl, fun _ _ h => h⟩

theorem Cmp.Keeps.vecOf {T T' : Cmp α β} (h : T.Keeps T') (s : Side) : T'.vecOf s = T.vecOf s := by
  cases s
  · exact h.u
  · exact h.v

/-- Thread `k` acts through its call on side `s`. -/
structure Acts (S S' : Sys α β) (k : Nat) (T : Cmp α β) (s : Side) (T' : Cmp α β) : Prop where
  cmp : S.cmp k = some T
  cmp' : S'.cmp = upd S.cmp k (some T')
  vec : ∃ κ', S'.vec = upd S.vec (T.vecOf s) κ' ∧ Step (S.vec (T.vecOf s)) κ' ∧ T'.cid s < κ'.next ∧
    ∀ c, c ≠ T'.cid s → κ'.calls c = (S.vec (T.vecOf s)).calls c
  pos : 0 < T'.cid s
  mine : T'.cid s = T.cid s ∨ T'.cid s = (S.vec (T.vecOf s)).next
  other : ∀ s', s' ≠ s → T'.cid s' = T.cid s'
  keeps : T.Keeps T'

section acts

variable {S S' : Sys α β} {k : Nat} {T T' : Cmp α β} {s : Side}

theorem Acts.vecStep (h : Acts S S' k T s T') : VecStep S S' := by
  intro u
  obtain ⟨κ', hv, hs, -⟩ := h.vec
  rw [hv]
  by_cases hu : u = T.vecOf s
  · subst hu; right; simpa using hs
  · left; simp [hu]

theorem Acts.quiet (h : Acts S S' k T s T') (hI : SysInv m l S) {k' : Nat} {T1 : Cmp α β} {s' : Side}
    (hk : S.cmp k' = some T1) (hne : ¬ (k' = k ∧ s' = s)) :
    Quiet (S.vec (T1.vecOf s')) (S'.vec (T1.vecOf s')) (T1.cid s') := by
  obtain ⟨κ', hv, hs, -, hc⟩ := h.vec
  refine ⟨h.vecStep _, ?_⟩
  rw [hv]
  by_cases hu : T1.vecOf s' = T.vecOf s
  · rw [hu]
    simp only [upd_same]
    refine hc _ ?_
    intro he
    rcases h.mine with hm | hm
    · rw [hm] at he
      have := hI.distinct _ _ _ _ _ _ hk h.cmp hne hu he
      have hp := h.pos
      rw [hm, ← he, this] at hp
      exact Nat.lt_irrefl _ hp
    · rw [hm, ← hu] at he
      have := hI.ids _ _ s' hk
      rw [he] at this
      exact Nat.lt_irrefl _ this
  · rw [upd_other _ _ hu]

theorem Acts.inv (h : Acts S S' k T s T') (hI : SysInv m l S) : SysInv m l S' := by
  have hv := h.vecStep
  obtain ⟨κ', hv', hs, hlt, hc⟩ := h.vec
  have hcid : ∀ k1 T1 s1, S'.cmp k1 = some T1 → (k1 = k ∧ s1 = s ∧ T1 = T') ∨
      (¬ (k1 = k ∧ s1 = s) ∧ ∃ T0, S.cmp k1 = some T0 ∧ T1.vecOf s1 = T0.vecOf s1 ∧ T1.cid s1 = T0.cid s1) := by
    intro k1 T1 s1 h1
    rw [h.cmp'] at h1
    by_cases hk : k1 = k
    · subst hk
      simp only [upd_same, Option.some.injEq] at h1
      subst h1
      by_cases hss : s1 = s
      · exact .inl ⟨rfl, hss, rfl⟩
      · exact .inr ⟨fun hh => hss hh.2, T, h.cmp, h.keeps.vecOf _, h.other _ hss⟩
    · rw [upd_other _ _ hk] at h1
      exact .inr ⟨fun hh => hk hh.1, T1, h1, rfl, rfl⟩
  have hnext : ∀ u, (S.vec u).next ≤ (S'.vec u).next := by
    intro u
    rcases hv u with he | hs
    · rw [he]; exact Nat.le_refl _
    · exact hs.next_le
  have key : ∀ {k1 T1 s1}, S'.cmp k1 = some T1 → ¬ (k1 = k ∧ s1 = s) → T1.vecOf s1 = T'.vecOf s → T1.cid s1 = T'.cid s →
      False := by
    intro k1 T1 s1 h1 hne hvv hcc
    rcases hcid _ _ s1 h1 with ⟨rfl, rfl, -⟩ | ⟨-, T0, h0, e1, e2⟩
    · exact hne ⟨rfl, rfl⟩
    · rw [h.keeps.vecOf, e1] at hvv
      rw [e2] at hcc
      rcases h.mine with hm | hm
      · rw [hm] at hcc
        have h3 := hI.distinct _ _ _ _ _ _ h0 h.cmp hne hvv hcc
        have hp := h.pos
        rw [hm, ← hcc, h3] at hp
        exact Nat.lt_irrefl _ hp
      · rw [hm, ← hvv] at hcc
        have := hI.ids _ _ s1 h0
        rw [hcc] at this
        exact Nat.lt_irrefl _ this
  refine ⟨fun u => ?_, fun k1 T1 s1 h1 => ?_, fun k1 T1 s1 k2 T2 s2 h1 h2 hne hvv hcc => ?_⟩
  · rcases hv u with he | hs
    · rw [he]; exact hI.reach u
    · exact .step (hI.reach u) hs
  · rcases hcid _ _ s1 h1 with ⟨rfl, rfl, rfl⟩ | ⟨-, T0, h0, e1, e2⟩
    · rw [h.keeps.vecOf, hv', upd_same]; exact hlt
    · rw [e1, e2]; exact Nat.lt_of_lt_of_le (hI.ids _ _ _ h0) (hnext _)
  · rcases hcid _ _ s1 h1 with ⟨rfl, rfl, rfl⟩ | ⟨n1, T0, h0, e1, e2⟩
    · exact (key h2 (fun hh => hne ⟨hh.1.symm, hh.2.symm⟩) hvv.symm hcc.symm).elim
    · rcases hcid _ _ s2 h2 with ⟨rfl, rfl, rfl⟩ | ⟨n2, T3, h3, e3, e4⟩
      · exact (key h1 hne hvv hcc).elim
      · rw [e2] at hcc ⊢
        rw [e1, e3] at hvv
        rw [e4] at hcc
        exact hI.distinct _ _ _ _ _ _ h0 h3 hne hvv hcc

end acts

/-! ## What a comparison has found out -/

section hist

variable {S : Nat → Sys α β} {n k : Nat} {T T' : Cmp α β} {es fs : List Nat} {rs : List (Option Bool)}

theorem CfgInv.returned_mono {σ : SpecSt α} {κ κ' : Cfg α β} (h : CfgInv σ κ) (hs : κ' = κ ∨ Step κ κ') {c : Cid} {op : Op α β}
    {x : Ret α β} (hr : κ.Returned c op x) : κ'.Returned c op x := by
  rcases hs with rfl | hs
  · exact hr
  obtain ⟨ct, st, et, fin, hc⟩ := hr
  obtain ⟨r', hc', hn⟩ := h.step_rec hs hc
  have := hn.ended (et, fin) rfl
  subst this
  exact ⟨ct, st, et, fin, hc'⟩

theorem CfgInv.revealed_mono {σ : SpecSt α} {κ κ' : Cfg α β} (h : CfgInv σ κ) (hs : κ' = κ ∨ Step κ κ') {i : Nat}
    (hr : κ.Revealed i) : κ'.Revealed i := by
  obtain ⟨c, x, op, ct, st, et, fin, hc, hi⟩ := hr
  obtain ⟨ct, st, et, fin, hc'⟩ := h.returned_mono hs (c := c) (op := op) (x := x) ⟨ct, st, et, fin, hc⟩
  exact ⟨c, x, op, ct, st, et, fin, hc', hi⟩

theorem PairAt.keeps {e f : Nat} {r : Option Bool} {t : Nat} (h : PairAt S k T e f r t) (hk : T.Keeps T') :
    PairAt S k T' e f r t := by
  obtain ⟨h1, x, y, h2, h3, h4⟩ := h
  exact ⟨h1, x, y, by rw [hk.u]; exact h2, by rw [hk.v]; exact h3, by rw [hk.veq]; exact h4⟩

theorem Sys.Elements.mono {S S' : Sys α β} (hI : ∀ u, CfgInv (.ofList (l u)) (S.vec u)) (hv : VecStep S S') (hk : T.Keeps T')
    {s : Side} (h : S.Elements T s es) : S'.Elements T' s es := by
  have ha : T'.arg s = T.arg s := by
    cases s
    · exact hk.p
    · exact hk.q
  simp only [Sys.Elements, ha] at h ⊢
  cases hp : T.arg s with
  | vec =>
    simp only [hp] at h ⊢
    obtain ⟨c, hc, hr⟩ := h
    refine ⟨c, hk.own _ _ hc, ?_⟩
    rw [hk.vecOf]
    exact (hI _).returned_mono (hv _) hr
  | slc t => simpa only [hp] using h
  | el e => simpa only [hp] using h

/-- What a comparison knows when it has compared the first pairs. -/
structure Hist (S : Nat → Sys α β) (n k : Nat) (T : Cmp α β) (es fs : List Nat) (rs : List (Option Bool)) : Prop where
  left : (S n).Elements T .left es
  right : (S n).Elements T .right fs
  revL : ∀ i ∈ es, ((S n).vec T.u).Revealed i
  revR : ∀ i ∈ fs, ((S n).vec T.v).Revealed i
  cmp : ∃ τ, Compared S n k T es fs rs τ
  diff : T.u = T.v → ∀ i e, i < rs.length → es[i]? = some e → fs[i]? ≠ some e

theorem Hist.mono (h : Hist S n k T es fs rs) (hI : ∀ u, CfgInv (.ofList (l u)) ((S n).vec u)) (hv : VecStep (S n) (S (n + 1)))
    (hk : T.Keeps T') : Hist S (n + 1) k T' es fs rs where
  left := h.left.mono hI hv hk
  right := h.right.mono hI hv hk
  revL i hi := by rw [hk.u]; exact (hI _).revealed_mono (hv _) (h.revL i hi)
  revR i hi := by rw [hk.v]; exact (hI _).revealed_mono (hv _) (h.revR i hi)
  cmp := by
    obtain ⟨τ, h1, h2⟩ := h.cmp
    refine ⟨τ, fun i r hr => ?_, h2⟩
    obtain ⟨h3, e, f, h4, h5, h6⟩ := h1 i r hr
    exact ⟨Nat.le_succ_of_le h3, e, f, h4, h5, h6.keeps hk⟩
  diff := by rw [hk.u, hk.v]; exact h.diff

/-- One more pair is compared. -/
theorem Hist.snoc (h : Hist S n k T es fs rs) (hI : ∀ u, CfgInv (.ofList (l u)) ((S n).vec u)) (hv : VecStep (S n) (S (n + 1)))
    (hk : T.Keeps T') {e f : Nat} {r : Option Bool} (he : es[rs.length]? = some e) (hf : fs[rs.length]? = some f)
    (hp : PairAt S k T' e f r (n + 1)) (hd : T'.u = T'.v → e ≠ f) : Hist S (n + 1) k T' es fs (rs ++ [r]) where
  __ := h.mono hI hv hk
  diff := by
    intro huv i e' hi h1 h2
    by_cases hi' : i = rs.length
    · subst hi'
      rw [he] at h1
      rw [hf] at h2
      cases h1
      cases h2
      exact hd huv rfl
    · simp only [List.length_append, List.length_singleton] at hi
      exact (h.mono hI hv hk).diff huv i e' (by omega) h1 h2
  cmp := by
    obtain ⟨τ, h1, h2⟩ := h.cmp
    refine ⟨upd τ rs.length (n + 1), fun i r' hr => ?_, fun i i' hii hi => ?_⟩
    · by_cases hi : i = rs.length
      · subst hi
        simp at hr
        subst hr
        rw [upd_same]
        exact ⟨Nat.le_refl _, e, f, he, hf, hp⟩
      · have hlt : i < rs.length := by
          have := (List.getElem?_eq_some_iff.1 hr).1
          simp at this
          omega
        rw [List.getElem?_append_left hlt] at hr
        obtain ⟨h3, e, f, h4, h5, h6⟩ := h1 i r' hr
        rw [upd_other _ _ hi]
        exact ⟨by omega, e, f, h4, h5, h6.keeps hk⟩
    · simp only [List.length_append, List.length_singleton] at hi
      by_cases hi' : i' = rs.length
      · subst hi'
        rw [upd_same, upd_other _ _ (by omega)]
        obtain ⟨r0, hr0⟩ : ∃ r0, rs[i]? = some r0 := ⟨rs[i], List.getElem?_eq_getElem hii⟩
        have := (h1 i r0 hr0).1
        omega
      · rw [upd_other _ _ hi', upd_other _ _ (by omega)]
        exact h2 i i' hii (by omega)

theorem Hist.le (h : Hist S n k T es fs rs) : rs.length ≤ es.length ∧ rs.length ≤ fs.length := by
  obtain ⟨τ, h1, -⟩ := h.cmp
  rcases Nat.eq_zero_or_pos rs.length with h0 | h0
  · omega
  · have hlt : rs.length - 1 < rs.length := by omega
    obtain ⟨-, e, f, h2, h3, -⟩ := h1 (rs.length - 1) rs[rs.length - 1] (List.getElem?_eq_getElem hlt)
    have h4 := (List.getElem?_eq_some_iff.1 h2).1
    have h5 := (List.getElem?_eq_some_iff.1 h3).1
    omega

end hist

/-! ## How far a comparison is -/

namespace Client

variable (veq : α → α → Option Bool) (f : Nat) (K : Client α β)

/-- What is left to do for a pair after both values have been read. -/
abbrev judge : Client α β := .fin .right fun y => .fin .left fun x => verdict veq K x y

/-- What is left to do for a pair after the handle of the left element has been taken. -/
abbrev gotL : Client α β := .call .right (.elCloned f) <| .step .right <| .step .left <| .step .right <| judge veq K

end Client

/-- The two handles are being taken and the values read. -/
inductive Locking (S : Sys α β) (T : Cmp α β) (e f : Nat) (K : Client α β) : Prop where
  | callL (h : T.prog = .eqElem T.veq e f K)
  | lockL (hl : At (S.vec T.u) (T.cid .left) e .wait) (h : T.prog = .step .left (.gotL T.veq f K))
  | callR (hl : At (S.vec T.u) (T.cid .left) e .held) (h : T.prog = .gotL T.veq f K)
  | lockR (hl : At (S.vec T.u) (T.cid .left) e .held) (hr : At (S.vec T.v) (T.cid .right) f .wait)
      (h : T.prog = (.step .right <| .step .left <| .step .right <| .judge T.veq K))
  | readL (hl : At (S.vec T.u) (T.cid .left) e .held) (hr : At (S.vec T.v) (T.cid .right) f .held)
      (h : T.prog = (.step .left <| .step .right <| .judge T.veq K))
  | readR (x : α) (hl : At (S.vec T.u) (T.cid .left) e (.read x)) (hr : At (S.vec T.v) (T.cid .right) f .held)
      (h : T.prog = (.step .right <| .judge T.veq K))

/-- The two values have been read, the handles are being released. -/
inductive Judging (S : Sys α β) (T : Cmp α β) (e f : Nat) (K : Client α β) (x y : α) : Prop where
  | both (hl : At (S.vec T.u) (T.cid .left) e (.read x)) (hr : At (S.vec T.v) (T.cid .right) f (.read y))
      (h : T.prog = .judge T.veq K)
  | unlR (hl : At (S.vec T.u) (T.cid .left) e (.read x)) (hr : At (S.vec T.v) (T.cid .right) f (.free y))
      (h : T.prog = .judge T.veq K)
  | left (hl : At (S.vec T.u) (T.cid .left) e (.read x)) (h : T.prog = .fin .left fun r => .verdict T.veq K r (.val y))
  | unlL (hl : At (S.vec T.u) (T.cid .left) e (.free x)) (h : T.prog = .fin .left fun r => .verdict T.veq K r (.val y))

/-- How far the comparison `T` of thread `k` is at moment `n`. -/
inductive Phase (S : Nat → Sys α β) (n k : Nat) (T : Cmp α β) : Prop where
  | callL (hp : T.p = .vec) (hq : ∀ i ∈ T.q.needs, ((S n).vec T.v).Revealed i)
      (h : T.prog = (.call .left .iter <| .fin .left <| .onElems fun es => .iter .right T.q fun fs => .loop T.veq es fs))
  | finL (hp : T.p = .vec) (hq : ∀ i ∈ T.q.needs, ((S n).vec T.v).Revealed i) (ho : T.cid .left ∈ T.own .left)
      (hc : ((S n).vec T.u).Running (T.cid .left) .iter)
      (h : T.prog = (.fin .left <| .onElems fun es => .iter .right T.q fun fs => .loop T.veq es fs))
  | callR (es : List Nat) (hq : T.q = .vec) (hl : (S n).Elements T .left es) (hr : ∀ i ∈ es, ((S n).vec T.u).Revealed i)
      (h : T.prog = (.call .right .iter <| .fin .right <| .onElems fun fs => .loop T.veq es fs))
  | finR (es : List Nat) (hq : T.q = .vec) (hl : (S n).Elements T .left es) (hr : ∀ i ∈ es, ((S n).vec T.u).Revealed i)
      (ho : T.cid .right ∈ T.own .right) (hc : ((S n).vec T.v).Running (T.cid .right) .iter)
      (h : T.prog = (.fin .right <| .onElems fun fs => .loop T.veq es fs))
  | locking (es fs : List Nat) (j e f : Nat) (hH : Hist S n k T es fs (List.replicate j (some true))) (he : es[j]? = some e)
      (hf : fs[j]? = some f) (h : Locking (S n) T e f (.loop T.veq (es.drop (j + 1)) (fs.drop (j + 1))))
  | judging (es fs : List Nat) (j e f : Nat) (x y : α) (hH : Hist S n k T es fs (List.replicate j (some true) ++ [T.veq x y]))
      (h : Judging (S n) T e f (.loop T.veq (es.drop (j + 1)) (fs.drop (j + 1))) x y)
  | ret (es fs : List Nat) (rs : List (Option Bool)) (b : Bool) (hH : Hist S n k T es fs rs) (hv : Verdict es fs rs b)
      (h : T.prog = .ret b)
  | fail (es fs : List Nat) (j : Nat) (hH : Hist S n k T es fs (List.replicate j (some true) ++ [none]))
      (h : T.prog = .panic .userCode)

section phase

variable {S : Nat → Sys α β} {n k : Nat} {T T' : Cmp α β}

/-- The comparison comes to the next pair. -/
theorem Phase.enter {es fs : List Nat} {j : Nat} (hH : Hist S n k T es fs (List.replicate j (some true)))
    (h : T.prog = .loop T.veq (es.drop j) (fs.drop j)) : Phase S n k T := by
  have hle := hH.le
  rw [List.length_replicate] at hle
  rcases he : es[j]? with _ | e
  · have h1 : es.length = j := by
      have := List.getElem?_eq_none_iff.1 he
      omega
    rcases hf : fs[j]? with _ | f
    · have h2 : fs.length = j := by
        have := List.getElem?_eq_none_iff.1 hf
        omega
      subst h1
      refine .ret es fs _ true hH (.equal h2.symm) ?_
      rw [h, List.drop_length, ← h2, List.drop_length]
      rfl
    · obtain ⟨hlt, -⟩ := List.getElem?_eq_some_iff.1 hf
      have hmin : min es.length fs.length = j := by omega
      refine .ret es fs _ false hH (hmin ▸ .length (by omega)) ?_
      rw [h, List.drop_eq_nil_of_le (by omega), List.drop_eq_getElem_cons hlt]
      rfl
  · obtain ⟨hlt, he'⟩ := List.getElem?_eq_some_iff.1 he
    rcases hf : fs[j]? with _ | f
    · have h2 : fs.length = j := by
        have := List.getElem?_eq_none_iff.1 hf
        omega
      have hmin : min es.length fs.length = j := by omega
      refine .ret es fs _ false hH (hmin ▸ .length (by omega)) ?_
      rw [h, List.drop_eq_nil_of_le (as := fs) (by omega), List.drop_eq_getElem_cons hlt]
      rfl
    · obtain ⟨hlt', hf'⟩ := List.getElem?_eq_some_iff.1 hf
      refine .locking es fs j e f hH he hf (.callL ?_)
      rw [h, List.drop_eq_getElem_cons hlt, List.drop_eq_getElem_cons hlt', he', hf']
      rfl

theorem positions_view (s : Slc) : s.iter = s.view := by
  rw [Slc.iter, Slc.view, positions, List.range'_eq_map_range]

/-- The elements of the left operand are known. -/
theorem Phase.afterL {es : List Nat} (hl : (S n).Elements T .left es) (hr : ∀ i ∈ es, ((S n).vec T.u).Revealed i)
    (hq : ∀ i ∈ T.q.needs, ((S n).vec T.v).Revealed i)
    (h : T.prog = .iter .right T.q fun fs => .loop T.veq es fs) : Phase S n k T := by
  have key : ∀ {fs}, (S n).Elements T .right fs → (∀ i ∈ fs, ((S n).vec T.v).Revealed i) → T.prog = .loop T.veq es fs →
      Phase S n k T := fun h1 h2 h3 =>
    Phase.enter (j := 0) ⟨hl, h1, hr, h2, ⟨fun _ => 0, fun i r hr => by simp at hr,
      fun i i' _ hi => by simp at hi⟩, fun _ i e hi => by simp at hi⟩ (by simpa using h3)
  cases hqq : T.q with
  | vec =>
    rw [hqq] at h
    exact .callR es hqq hl hr h
  | slc t =>
    rw [hqq] at h hq
    refine key (fs := t.view) ?_ ?_ ?_
    · simp only [Sys.Elements, Cmp.arg, hqq]
    · rw [← positions_view]; exact hq
    · rw [← positions_view]; exact h
  | el e =>
    rw [hqq] at h hq
    refine key (fs := [e]) ?_ hq h
    simp only [Sys.Elements, Cmp.arg, hqq]

/-- The comparison begins. -/
theorem Phase.start (hp : ∀ i ∈ T.p.needs, ((S n).vec T.u).Revealed i) (hq : ∀ i ∈ T.q.needs, ((S n).vec T.v).Revealed i)
    (h : T.prog = .compare T.veq T.p T.q) : Phase S n k T := by
  rw [Client.compare] at h
  cases hpp : T.p with
  | vec =>
    rw [hpp] at h
    exact .callL hpp hq h
  | slc t =>
    rw [hpp] at h hp
    refine .afterL (es := t.view) ?_ ?_ hq ?_
    · simp only [Sys.Elements, Cmp.arg, hpp]
    · rw [← positions_view]; exact hp
    · rw [← positions_view]; exact h
  | el e =>
    rw [hpp] at h hp
    refine .afterL (es := [e]) ?_ hp hq h
    simp only [Sys.Elements, Cmp.arg, hpp]

theorem Cfg.Running.quiet {κ κ' : Cfg α β} {c : Cid} {op : Op α β} (h : κ.Running c op) (hq : Quiet κ κ' c) : κ'.Running c op := by
  obtain ⟨ct, st, p, hc⟩ := h
  exact ⟨ct, st, p, by rw [hq.same, hc]⟩

/-- Others act. -/
theorem Phase.quiet (hI : ∀ u, CfgInv (.ofList (l u)) ((S n).vec u)) (hv : VecStep (S n) (S (n + 1)))
    (hql : Quiet ((S n).vec T.u) ((S (n + 1)).vec T.u) (T.cid .left))
    (hqr : Quiet ((S n).vec T.v) ((S (n + 1)).vec T.v) (T.cid .right)) (h : Phase S n k T) : Phase S (n + 1) k T := by
  have hk := Cmp.Keeps.refl T
  have hrev : ∀ {u i}, ((S n).vec u).Revealed i → ((S (n + 1)).vec u).Revealed i := fun h => (hI _).revealed_mono (hv _) h
  cases h with
  | callL hp hq h => exact .callL hp (fun i hi => hrev (hq i hi)) h
  | finL hp hq ho hc h => exact .finL hp (fun i hi => hrev (hq i hi)) ho (hc.quiet hql) h
  | callR es hq hl hr h => exact .callR es hq (hl.mono hI hv hk) (fun i hi => hrev (hr i hi)) h
  | finR es hq hl hr ho hc h => exact .finR es hq (hl.mono hI hv hk) (fun i hi => hrev (hr i hi)) ho (hc.quiet hqr) h
  | locking es fs j e f hH he hf h =>
    refine .locking es fs j e f (hH.mono hI hv hk) he hf ?_
    cases h with
    | callL h => exact .callL h
    | lockL hl h => exact .lockL (hl.quiet (hI _) hql) h
    | callR hl h => exact .callR (hl.quiet (hI _) hql) h
    | lockR hl hr h => exact .lockR (hl.quiet (hI _) hql) (hr.quiet (hI _) hqr) h
    | readL hl hr h => exact .readL (hl.quiet (hI _) hql) (hr.quiet (hI _) hqr) h
    | readR x hl hr h => exact .readR x (hl.quiet (hI _) hql) (hr.quiet (hI _) hqr) h
  | judging es fs j e f x y hH h =>
    refine .judging es fs j e f x y (hH.mono hI hv hk) ?_
    cases h with
    | both hl hr h => exact .both (hl.quiet (hI _) hql) (hr.quiet (hI _) hqr) h
    | unlR hl hr h => exact .unlR (hl.quiet (hI _) hql) (hr.quiet (hI _) hqr) h
    | left hl h => exact .left (hl.quiet (hI _) hql) h
    | unlL hl h => exact .unlL (hl.quiet (hI _) hql) h
  | ret es fs rs b hH hv' h => exact .ret es fs rs b (hH.mono hI hv hk) hv' h
  | fail es fs j hH h => exact .fail es fs j (hH.mono hI hv hk) h

/-! ## A comparison acts -/

theorem Cmp.cid_opened {s : Side} {c : Cid} {K : Client α β} : (T.opened s c K).cid s = c := by simp [Cmp.opened, Cmp.cid]

theorem Cmp.cid_opened_other {s s' : Side} {c : Cid} {K : Client α β} (h : s' ≠ s) : (T.opened s c K).cid s' = T.cid s' := by
  simp [Cmp.opened, Cmp.cid, h]

theorem Cmp.keeps_opened {s : Side} {c : Cid} {K : Client α β} : T.Keeps (T.opened s c K) := by
  refine ⟨rfl, rfl, rfl, rfl, rfl, fun s' c' h => ?_⟩
  simp only [Cmp.opened]
  split
  · exact List.mem_cons_of_mem _ h
  · exact h

theorem Cmp.own_opened {s : Side} {c : Cid} {K : Client α β} : c ∈ (T.opened s c K).own s := by simp [Cmp.opened]

theorem Cmp.keeps_prog {K : Client α β} : T.Keeps { T with prog := K } := ⟨rfl, rfl, rfl, rfl, rfl, fun _ _ h => h⟩

/-- Configuration after an invocation. -/
abbrev Cfg.invoked (κ : Cfg α β) (op : Op α β) : Cfg α β :=
  { κ with
    calls := upd κ.calls κ.next (some ⟨op, κ.clock, κ.w, .running op.prog⟩)
    next := κ.next + 1
    clock := κ.clock + 1 }

theorem Cfg.invoked_calls {κ : Cfg α β} {op : Op α β} :
    (κ.invoked op).calls κ.next = some ⟨op, κ.clock, κ.w, .running op.prog⟩ := by simp

theorem Acts.call {S S' : Sys α β} {s : Side} {op : Op α β} {K : Client α β} (hI : SysInv m l S) (hm : ∀ u, InitMem (m u) (l u))
    (hk : S.cmp k = some T) (h : ∀ i ∈ op.needs, (S.vec (T.vecOf s)).Revealed i)
    (hp : ∀ i ∈ op.needsPtr, (S.vec (T.vecOf s)).RevealedPtr i)
    (hv : S'.vec = upd S.vec (T.vecOf s) ((S.vec (T.vecOf s)).invoked op))
    (hc : S'.cmp = upd S.cmp k (some (T.opened s (S.vec (T.vecOf s)).next K))) :
    Acts S S' k T s (T.opened s (S.vec (T.vecOf s)).next K) where
  cmp := hk
  cmp' := hc
  vec := by
    refine ⟨_, hv, .invoke _ op h hp, ?_, fun c hne => ?_⟩
    · rw [Cmp.cid_opened]; exact Nat.lt_succ_self _
    · rw [Cmp.cid_opened] at hne
      exact upd_other _ _ hne
  pos := by rw [Cmp.cid_opened]; exact ((hI.reach _).inv (hm _)).pos
  mine := .inr Cmp.cid_opened
  other s' hs := Cmp.cid_opened_other hs
  keeps := Cmp.keeps_opened

theorem At.invoked {κ : Cfg α β} {e : Nat} : At (κ.invoked (.elCloned e)) κ.next e .wait :=
  ⟨⟨_, _, Cfg.invoked_calls⟩, trivial⟩

/-- The comparison makes a call. -/
theorem Phase.call (hI : SysInv m l (S n)) (hm : ∀ u, InitMem (m u) (l u)) {s : Side} {op : Op α β} {K : Client α β}
    (hk : (S n).cmp k = some T) (h : ∀ i ∈ op.needs, ((S n).vec (T.vecOf s)).Revealed i)
    (hp : ∀ i ∈ op.needsPtr, ((S n).vec (T.vecOf s)).RevealedPtr i)
    (hv : (S (n + 1)).vec = upd (S n).vec (T.vecOf s) (((S n).vec (T.vecOf s)).invoked op))
    (hc : (S (n + 1)).cmp = upd (S n).cmp k (some (T.opened s ((S n).vec (T.vecOf s)).next K)))
    (ht : T.prog = .call s op K) (hP : Phase S n k T) : Phase S (n + 1) k (T.opened s ((S n).vec (T.vecOf s)).next K) := by
  have hA := Acts.call hI hm hk h hp hv hc
  have hI' : ∀ u, CfgInv (.ofList (l u)) ((S n).vec u) := fun u => (hI.reach u).inv (hm u)
  have hrev : ∀ {u i}, ((S n).vec u).Revealed i → ((S (n + 1)).vec u).Revealed i := fun h =>
    (hI' _).revealed_mono (hA.vecStep _) h
  have hvs : (S (n + 1)).vec (T.vecOf s) = ((S n).vec (T.vecOf s)).invoked op := by rw [hv, upd_same]
  cases hP with
  | callL hp' hq h =>
    rw [h] at ht
    simp only [Client.call.injEq] at ht
    obtain ⟨rfl, rfl, rfl⟩ := ht
    refine .finL hp' (fun i hi => hrev (hq i hi)) ?_ ?_ rfl
    · rw [Cmp.cid_opened]; exact Cmp.own_opened
    · rw [Cmp.cid_opened]
      exact ⟨_, _, _, (congrFun (congrArg Cfg.calls hvs) _).trans Cfg.invoked_calls⟩
  | callR es hq hl hr h =>
    rw [h] at ht
    simp only [Client.call.injEq] at ht
    obtain ⟨rfl, rfl, rfl⟩ := ht
    refine .finR es hq (hl.mono hI' hA.vecStep hA.keeps) (fun i hi => hrev (hr i hi)) ?_ ?_ rfl
    · rw [Cmp.cid_opened]; exact Cmp.own_opened
    · rw [Cmp.cid_opened]
      exact ⟨_, _, _, (congrFun (congrArg Cfg.calls hvs) _).trans Cfg.invoked_calls⟩
  | locking es fs j e f hH he hf h =>
    refine .locking es fs j e f (hH.mono hI' hA.vecStep hA.keeps) he hf ?_
    cases h with
    | callL h =>
      rw [h] at ht
      simp only [Client.eqElem, Client.call.injEq] at ht
      obtain ⟨rfl, rfl, rfl⟩ := ht
      refine .lockL ?_ rfl
      rw [Cmp.cid_opened]
      exact hvs ▸ At.invoked
    | callR hl h =>
      rw [h] at ht
      simp only [Client.gotL, Client.call.injEq] at ht
      obtain ⟨rfl, rfl, rfl⟩ := ht
      refine .lockR ?_ ?_ rfl
      · rw [Cmp.cid_opened_other (by decide)]
        exact hl.quiet (hI' _) (hA.quiet hI (s' := .left) hk (by simp))
      · rw [Cmp.cid_opened]
        exact hvs ▸ At.invoked
    | lockL hl h => rw [h] at ht; cases ht
    | lockR hl hr h => rw [h] at ht; cases ht
    | readL hl hr h => rw [h] at ht; cases ht
    | readR x hl hr h => rw [h] at ht; cases ht
  | finL hp hq ho hc h => rw [h] at ht; cases ht
  | finR es hq hl hr ho hc h => rw [h] at ht; cases ht
  | judging es fs j e f x y hH h => cases h <;> rename_i h <;> rw [h] at ht <;> cases ht
  | ret es fs rs b hH hv' h => rw [h] at ht; cases ht
  | fail es fs j hH h => rw [h] at ht; cases ht

/-- An open call of the comparison makes a step. -/
theorem Acts.open {S S' : Sys α β} {s : Side} {K : Client α β} {κ' : Cfg α β} {r r' : Rec α β} (hI : SysInv m l S)
    (hm : ∀ u, InitMem (m u) (l u)) (hk : S.cmp k = some T) (hr : (S.vec (T.vecOf s)).calls (T.cid s) = some r)
    (hs : Step (S.vec (T.vecOf s)) κ') (hcalls : κ'.calls = upd (S.vec (T.vecOf s)).calls (T.cid s) (some r'))
    (hv : S'.vec = upd S.vec (T.vecOf s) κ') (hc : S'.cmp = upd S.cmp k (some { T with prog := K })) :
    Acts S S' k T s { T with prog := K } where
  cmp := hk
  cmp' := hc
  vec := by
    refine ⟨_, hv, hs, Nat.lt_of_lt_of_le (hI.ids k T s hk) hs.next_le, fun c hne => ?_⟩
    rw [hcalls]
    exact upd_other _ _ hne
  pos := (((hI.reach _).inv (hm _)).next _ _ hr).1
  mine := .inl rfl
  other _ _ := rfl
  keeps := Cmp.keeps_prog

theorem Cmp.eta {K : Client α β} (h : T.prog = K) : T = { T with prog := K } := by cases T; cases h; rfl

section open_

variable {s : Side} {r : Rec α β} {a : Act α} {again : a.Resp → Bool} {g : a.Resp → Prog α (Ret α β)} {w' : World α} {b : a.Resp}

/-- The open call performs the action which the comparison asked for. -/
theorem Phase.step (hI : SysInv m l (S n)) (hm : ∀ u, InitMem (m u) (l u)) {K : Client α β}
    (hk : (S n).cmp k = some T) (hcl : ((S n).vec (T.vecOf s)).calls (T.cid s) = some r)
    (hr : r.status = .running (.step a again g)) (he : ((S n).vec (T.vecOf s)).w.exec (T.cid s) a = some (w', b))
    (hv : (S (n + 1)).vec = upd (S n).vec (T.vecOf s)
      (((S n).vec (T.vecOf s)).acted (T.cid s) r w' (if again b then .step a again g else g b)))
    (hc : (S (n + 1)).cmp = upd (S n).cmp k (some { T with prog := if again b then .step s K else K }))
    (ht : T.prog = .step s K) (hP : Phase S n k T) : Phase S (n + 1) k { T with prog := if again b then .step s K else K } := by
  have hA := Acts.open hI hm hk hcl (.act _ _ _ _ _ _ _ _ hcl hr he) rfl hv hc
  have hI' : ∀ u, CfgInv (.ofList (l u)) ((S n).vec u) := fun u => (hI.reach u).inv (hm u)
  have hvs : (S (n + 1)).vec (T.vecOf s) =
      ((S n).vec (T.vecOf s)).acted (T.cid s) r w' (if again b then .step a again g else g b) := by rw [hv, upd_same]
  cases hP with
  | locking es fs j e f hH hee hf h =>
    have hH' := hH.mono hI' hA.vecStep hA.keeps
    have hpe : (((S n).vec T.u).w.spec.val e).isSome := (hI' _).revealed (hH.revL e (List.mem_of_getElem? hee))
    have hpf : (((S n).vec T.v).w.spec.val f).isSome := (hI' _).revealed (hH.revR f (List.mem_of_getElem? hf))
    cases h with
    | callL h => rw [h] at ht; cases ht
    | callR hl h => rw [h] at ht; cases ht
    | lockL hl h =>
      rw [h] at ht
      simp only [Client.step.injEq] at ht
      obtain ⟨rfl, rfl⟩ := ht
      refine .locking es fs j e f hH' hee hf ?_
      rcases hl.lock (hI' _) hpe hcl hr he with ⟨hb, ha⟩ | ⟨hb, ha⟩
      · simp only [hb, if_true] at hvs ⊢
        exact .lockL (hvs ▸ ha) rfl
      · simp only [hb, Bool.false_eq_true, if_false] at hvs ⊢
        exact .callR (hvs ▸ ha) rfl
    | lockR hl hr' h =>
      rw [h] at ht
      simp only [Client.step.injEq] at ht
      obtain ⟨rfl, rfl⟩ := ht
      refine .locking es fs j e f hH' hee hf ?_
      have hl' := hl.quiet (hI' _) (hA.quiet hI (s' := .left) hk (by simp))
      rcases hr'.lock (hI' _) hpf hcl hr he with ⟨hb, ha⟩ | ⟨hb, ha⟩
      · simp only [hb, if_true] at hvs ⊢
        exact .lockR hl' (hvs ▸ ha) rfl
      · simp only [hb, Bool.false_eq_true, if_false] at hvs ⊢
        exact .readL hl' (hvs ▸ ha) rfl
    | readL hl hr' h =>
      rw [h] at ht
      simp only [Client.step.injEq] at ht
      obtain ⟨rfl, rfl⟩ := ht
      refine .locking es fs j e f hH' hee hf ?_
      have hr'' := hr'.quiet (hI' _) (hA.quiet hI (s' := .right) hk (by simp))
      obtain ⟨hb, x, ha⟩ := hl.readValue (hI' _) hcl hr he
      simp only [hb, Bool.false_eq_true, if_false] at hvs ⊢
      exact .readR x (hvs ▸ ha) hr'' rfl
    | readR x hl hr' h =>
      rw [h] at ht
      simp only [Client.step.injEq] at ht
      obtain ⟨rfl, rfl⟩ := ht
      have hl' := hl.quiet (hI' _) (hA.quiet hI (s' := .left) hk (by simp))
      obtain ⟨hb, y, ha⟩ := hr'.readValue (hI' _) hcl hr he
      simp only [hb, Bool.false_eq_true, if_false] at hvs ⊢ hA hc
      have ha' : At ((S (n + 1)).vec T.v) (T.cid .right) f (.read y) := hvs ▸ ha
      refine .judging es fs j e f x y (hH.snoc hI' hA.vecStep hA.keeps (e := e) (f := f) ?_ ?_ ?_ ?_) (.both hl' ha' rfl)
      · rw [List.length_replicate]; exact hee
      · rw [List.length_replicate]; exact hf
      · refine ⟨⟨_, by rw [hc, upd_same], ?_, ?_⟩, x, y, hl'.knows.2, ha'.knows.2, rfl⟩
        · rintro b ⟨⟩
        · rintro b ⟨⟩
      · rintro huv rfl
        have h1 : ((S (n + 1)).vec T.u).w.holder e = some (T.cid .left) := hl'.knows.1
        have h2 : ((S (n + 1)).vec T.v).w.holder e = some (T.cid .right) := ha'.knows.1
        rw [show T.u = T.v from huv, h2] at h1
        have h3 := hI.distinct k T .left k T .right hk hk (by simp) huv (Option.some.inj h1).symm
        obtain ⟨⟨ct, st, h4⟩, -⟩ := hl
        have := ((hI' _).next _ _ h4).1
        rw [h3] at this
        exact Nat.lt_irrefl _ this
  | judging es fs j e f x y hH h => cases h <;> rename_i h <;> rw [h] at ht <;> cases ht
  | callL hp hq h => rw [h] at ht; cases ht
  | callR es hq hl hr h => rw [h] at ht; cases ht
  | finL hp hq ho hc h => rw [h] at ht; cases ht
  | finR es hq hl hr ho hc h => rw [h] at ht; cases ht
  | ret es fs rs b hH hv' h => rw [h] at ht; cases ht
  | fail es fs j hH h => rw [h] at ht; cases ht

/-- The open call performs an action on its way to the end. -/
theorem Phase.finStep (hI : SysInv m l (S n)) (hm : ∀ u, InitMem (m u) (l u)) {K : Ret α β → Client α β}
    (hk : (S n).cmp k = some T) (hcl : ((S n).vec (T.vecOf s)).calls (T.cid s) = some r)
    (hr : r.status = .running (.step a again g)) (he : ((S n).vec (T.vecOf s)).w.exec (T.cid s) a = some (w', b))
    (hv : (S (n + 1)).vec = upd (S n).vec (T.vecOf s)
      (((S n).vec (T.vecOf s)).acted (T.cid s) r w' (if again b then .step a again g else g b)))
    (hc : (S (n + 1)).cmp = (S n).cmp)
    (ht : T.prog = .fin s K) (hP : Phase S n k T) : Phase S (n + 1) k T := by
  have hc' : (S (n + 1)).cmp = upd (S n).cmp k (some { T with prog := .fin s K }) := by
    rw [hc, ← Cmp.eta ht]
    funext k'
    simp only [upd_apply]
    split
    · rename_i h; rw [h, hk]
    · rfl
  have hA := Acts.open hI hm hk hcl (.act _ _ _ _ _ _ _ _ hcl hr he) rfl hv hc'
  rw [← Cmp.eta ht] at hA
  have hI' : ∀ u, CfgInv (.ofList (l u)) ((S n).vec u) := fun u => (hI.reach u).inv (hm u)
  have hrev : ∀ {u i}, ((S n).vec u).Revealed i → ((S (n + 1)).vec u).Revealed i := fun h =>
    (hI' _).revealed_mono (hA.vecStep _) h
  have hvs : (S (n + 1)).vec (T.vecOf s) =
      ((S n).vec (T.vecOf s)).acted (T.cid s) r w' (if again b then .step a again g else g b) := by rw [hv, upd_same]
  have hrun : ∀ {op}, ((S n).vec (T.vecOf s)).Running (T.cid s) op → ((S (n + 1)).vec (T.vecOf s)).Running (T.cid s) op := by
    rintro op ⟨ct, st, p, h⟩
    rw [hcl] at h
    cases h
    exact ⟨_, _, _, (congrFun (congrArg Cfg.calls hvs) _).trans Cfg.acted_calls⟩
  cases hP with
  | finL hp hq ho hc h =>
    have h' := h
    rw [h] at ht
    simp only [Client.fin.injEq] at ht
    obtain ⟨rfl, rfl⟩ := ht
    exact .finL hp (fun i hi => hrev (hq i hi)) ho (hrun hc) h'
  | finR es hq hl hr ho hc h =>
    have h' := h
    rw [h] at ht
    simp only [Client.fin.injEq] at ht
    obtain ⟨rfl, rfl⟩ := ht
    exact .finR es hq (hl.mono hI' hA.vecStep hA.keeps) (fun i hi => hrev (hr i hi)) ho (hrun hc) h'
  | judging es fs j e f x y hH h =>
    refine .judging es fs j e f x y (hH.mono hI' hA.vecStep hA.keeps) ?_
    cases h with
    | both hl hr' h =>
      have h' := h
      rw [h] at ht
      simp only [Client.judge, Client.fin.injEq] at ht
      obtain ⟨rfl, rfl⟩ := ht
      have hl' := hl.quiet (hI' _) (hA.quiet hI (s' := .left) hk (by simp))
      obtain ⟨hb, ha⟩ := hr'.unlock hcl hr he
      simp only [hb, Bool.false_eq_true, if_false] at hvs
      exact .unlR hl' (hvs ▸ ha) h'
    | unlR hl hr' h =>
      rw [h] at ht
      simp only [Client.judge, Client.fin.injEq] at ht
      obtain ⟨rfl, rfl⟩ := ht
      cases (hr'.next hcl hr).1
    | left hl h =>
      have h' := h
      rw [h] at ht
      simp only [Client.fin.injEq] at ht
      obtain ⟨rfl, rfl⟩ := ht
      obtain ⟨hb, ha⟩ := hl.unlock hcl hr he
      simp only [hb, Bool.false_eq_true, if_false] at hvs
      exact .unlL (hvs ▸ ha) h'
    | unlL hl h =>
      rw [h] at ht
      simp only [Client.fin.injEq] at ht
      obtain ⟨rfl, rfl⟩ := ht
      cases (hl.next hcl hr).1
  | locking es fs j e f hH he hf h => cases h <;> rename_i h <;> rw [h] at ht <;> cases ht
  | callL hp hq h => rw [h] at ht; cases ht
  | callR es hq hl hr h => rw [h] at ht; cases ht
  | ret es fs rs b hH hv' h => rw [h] at ht; cases ht
  | fail es fs j hH h => rw [h] at ht; cases ht

/-- Configuration after the return of a call. -/
abbrev Cfg.ended (κ : Cfg α β) (c : Cid) (r : Rec α β) (s : Status α β) : Cfg α β :=
  { κ with calls := κ.setStatus c r s, clock := κ.clock + 1 }

/-- `iter` returned: the elements are known. -/
theorem CfgInv.iter_returned {σ : SpecSt α} {κ : Cfg α β} (h : CfgInv σ κ) {c : Cid} {x : Ret α β} (hr : κ.Returned c .iter x) :
    ∃ es, x = .elems es ∧ ∀ i ∈ es, κ.Revealed i := by
  obtain ⟨ct, st, et, fin, hc⟩ := hr
  obtain ⟨d, hi⟩ := h.returned hc
  obtain ⟨n, -, rfl, -⟩ := hi.out
  exact ⟨_, rfl, fun i hi => ⟨c, _, _, _, _, _, _, hc, hi⟩⟩

/-- The open call returns. -/
theorem Phase.finRet (hI : SysInv m l (S n)) (hm : ∀ u, InitMem (m u) (l u)) {K : Ret α β → Client α β} {z : Ret α β}
    (hk : (S n).cmp k = some T) (hcl : ((S n).vec (T.vecOf s)).calls (T.cid s) = some r) (hr : r.status = .running (.ret z))
    (hv : (S (n + 1)).vec = upd (S n).vec (T.vecOf s)
      (((S n).vec (T.vecOf s)).ended (T.cid s) r (.done z ((S n).vec (T.vecOf s)).clock ((S n).vec (T.vecOf s)).w)))
    (hc : (S (n + 1)).cmp = upd (S n).cmp k (some { T with prog := K z }))
    (ht : T.prog = .fin s K) (hP : Phase S n k T) : Phase S (n + 1) k { T with prog := K z } := by
  have hA := Acts.open hI hm hk hcl (.ret _ _ _ _ hcl hr) rfl hv hc
  have hI' : ∀ u, CfgInv (.ofList (l u)) ((S n).vec u) := fun u => (hI.reach u).inv (hm u)
  have hI1 : ∀ u, CfgInv (.ofList (l u)) ((S (n + 1)).vec u) := fun u => ((hA.inv hI).reach u).inv (hm u)
  have hrev : ∀ {u i}, ((S n).vec u).Revealed i → ((S (n + 1)).vec u).Revealed i := fun h =>
    (hI' _).revealed_mono (hA.vecStep _) h
  have hvs : (S (n + 1)).vec (T.vecOf s) =
      ((S n).vec (T.vecOf s)).ended (T.cid s) r (.done z ((S n).vec (T.vecOf s)).clock ((S n).vec (T.vecOf s)).w) := by
    rw [hv, upd_same]
  have hret : ((S n).vec (T.vecOf s)).Running (T.cid s) .iter → ((S (n + 1)).vec (T.vecOf s)).Returned (T.cid s) .iter z := by
    rintro ⟨ct, st, p, h⟩
    rw [hcl] at h
    cases h
    exact ⟨_, _, _, _, (congrFun (congrArg Cfg.calls hvs) _).trans setStatus_self⟩
  cases hP with
  | finL hp hq ho hcall h =>
    rw [h] at ht
    simp only [Client.fin.injEq] at ht
    obtain ⟨rfl, rfl⟩ := ht
    have hret := hret hcall
    obtain ⟨es, rfl, hes⟩ := (hI1 _).iter_returned hret
    refine .afterL (es := es) ?_ hes (fun i hi => hrev (hq i hi)) rfl
    simp only [Sys.Elements, Cmp.arg, hp]
    exact ⟨_, ho, hret⟩
  | finR es hq hl hre ho hcall h =>
    rw [h] at ht
    simp only [Client.fin.injEq] at ht
    obtain ⟨rfl, rfl⟩ := ht
    have hret := hret hcall
    obtain ⟨fs, rfl, hfs⟩ := (hI1 _).iter_returned hret
    refine Phase.enter (es := es) (fs := fs) (j := 0) ⟨hl.mono hI' hA.vecStep hA.keeps, ?_, fun i hi => hrev (hre i hi), hfs,
      ⟨fun _ => 0, fun i r hr => by simp at hr, fun i i' _ hi => by simp at hi⟩, fun _ i e hi => by simp at hi⟩
      (by simp [Client.onElems])
    simp only [Sys.Elements, Cmp.arg, hq]
    exact ⟨_, ho, hret⟩
  | judging es fs j e f x y hH h =>
    have hH' := hH.mono hI' hA.vecStep hA.keeps
    cases h with
    | both hl hr' h =>
      rw [h] at ht
      simp only [Client.judge, Client.fin.injEq] at ht
      obtain ⟨rfl, rfl⟩ := ht
      cases (hr'.next hcl hr).1
    | unlR hl hr' h =>
      rw [h] at ht
      simp only [Client.judge, Client.fin.injEq] at ht
      obtain ⟨rfl, rfl⟩ := ht
      have hl' := hl.quiet (hI' _) (hA.quiet hI (s' := .left) hk (by simp))
      cases (hr'.next hcl hr).1
      exact .judging es fs j e f x y hH' (.left hl' rfl)
    | left hl h =>
      rw [h] at ht
      simp only [Client.fin.injEq] at ht
      obtain ⟨rfl, rfl⟩ := ht
      cases (hl.next hcl hr).1
    | unlL hl h =>
      rw [h] at ht
      simp only [Client.fin.injEq] at ht
      obtain ⟨rfl, rfl⟩ := ht
      cases (hl.next hcl hr).1
      rcases hxy : T.veq x y with _ | _ | _
      · refine .fail es fs j ?_ (by simp [Client.verdict, hxy])
        rw [← hxy]; exact hH'
      · refine .ret es fs _ false ?_ (.differ j) (by simp [Client.verdict, hxy])
        rw [← hxy]; exact hH'
      · refine Phase.enter (es := es) (fs := fs) (j := j + 1) ?_ (by simp [Client.verdict, hxy])
        rw [hxy] at hH'
        rw [List.replicate_succ']; exact hH'
  | locking es fs j e f hH he hf h => cases h <;> rename_i h <;> rw [h] at ht <;> cases ht
  | callL hp hq h => rw [h] at ht; cases ht
  | callR es hq hl hr h => rw [h] at ht; cases ht
  | ret es fs rs b hH hv' h => rw [h] at ht; cases ht
  | fail es fs j hH h => rw [h] at ht; cases ht

/-- The open call does not panic. -/
theorem Phase.no_panic (hI : SysInv m l (S n)) (hm : ∀ u, InitMem (m u) (l u)) {pk : PanicKind}
    (hcl : ((S n).vec (T.vecOf s)).calls (T.cid s) = some r) (hr : r.status = .running (.panic pk))
    (ht : (∃ K, T.prog = .step s K) ∨ ∃ K, T.prog = .fin s K) (hP : Phase S n k T) : False := by
  have hrun : ¬ ((S n).vec (T.vecOf s)).Running (T.cid s) .iter := by
    rintro ⟨ct, st, p, h⟩
    rw [hcl] at h
    cases h
    cases hr
    have h1 := (Reach.step (hI.reach _) (.panic _ _ _ _ hcl rfl)).inv (hm _)
    obtain ⟨U, d, hi⟩ := h1.panicked setStatus_self
    exact hi.out
  have hat : ∀ {e st}, ¬ At ((S n).vec (T.vecOf s)) (T.cid s) e st := by
    intro e st h
    have h1 := (h.next hcl hr).1
    cases st with
    | wait => simp only [Stage.prog, elCloned_prog] at h1; cases h1
    | _ => cases h1
  cases hP with
  | finL hp hq ho hc h =>
    rw [h] at ht
    rcases ht with ⟨K, ht⟩ | ⟨K, ht⟩ <;> cases ht
    exact hrun hc
  | finR es hq hl hr ho hc h =>
    rw [h] at ht
    rcases ht with ⟨K, ht⟩ | ⟨K, ht⟩ <;> cases ht
    exact hrun hc
  | judging es fs j e f x y hH h =>
    cases h <;> rename_i h <;> rw [h] at ht <;> rcases ht with ⟨K, ht⟩ | ⟨K, ht⟩ <;> cases ht <;>
      exact hat ‹_›
  | locking es fs j e f hH he hf h =>
    cases h <;> rename_i h <;> rw [h] at ht <;> rcases ht with ⟨K, ht⟩ | ⟨K, ht⟩ <;> cases ht <;>
      exact hat ‹_›
  | callL hp hq h => rw [h] at ht; rcases ht with ⟨K, ht⟩ | ⟨K, ht⟩ <;> cases ht
  | callR es hq hl hr h => rw [h] at ht; rcases ht with ⟨K, ht⟩ | ⟨K, ht⟩ <;> cases ht
  | ret es fs rs b hH hv' h => rw [h] at ht; rcases ht with ⟨K, ht⟩ | ⟨K, ht⟩ <;> cases ht
  | fail es fs j hH h => rw [h] at ht; rcases ht with ⟨K, ht⟩ | ⟨K, ht⟩ <;> cases ht

end open_

end phase

/-! ## All executions -/

/-- Every vector is used as in `Model/Conc.lean`, and every comparison is somewhere. -/
structure SysOK (m : Nat → Mem α) (l : Nat → List α) (S : Nat → Sys α β) (n : Nat) : Prop extends SysInv m l (S n) where
  phase : ∀ k T, (S n).cmp k = some T → Phase S n k T

theorem SysExec.ok {S : Nat → Sys α β} {n : Nat} (h : SysExec m l n S) (hm : ∀ u, InitMem (m u) (l u)) :
    ∀ {t}, t ≤ n → SysOK m l S t := by
  intro t
  induction t with
  | zero =>
    intro _
    refine ⟨⟨fun u => ?_, fun k T s hk => ?_, fun k T s _ _ _ hk => ?_⟩, fun k T hk => ?_⟩
    · rw [h.init]; exact .init
    all_goals rw [h.init] at hk; cases hk
  | succ t ih =>
    intro ht
    have hO := ih (by omega)
    have hI := hO.toSysInv
    have hI' : ∀ u, CfgInv (.ofList (l u)) ((S t).vec u) := fun u => (hI.reach u).inv (hm u)
    have hstep := h.next t (by omega)
    -- a comparison acts
    have main : ∀ {k T s T'}, Acts (S t) (S (t + 1)) k T s T' → (Phase S t k T → Phase S (t + 1) k T') → SysOK m l S (t + 1) := by
      intro k T s T' hA hP
      refine ⟨hA.inv hI, fun k' T1 hk' => ?_⟩
      rw [hA.cmp'] at hk'
      by_cases hkk : k' = k
      · subst hkk
        simp only [upd_same, Option.some.injEq] at hk'
        subst hk'
        exact hP (hO.phase _ _ hA.cmp)
      · rw [upd_other _ _ hkk] at hk'
        exact Phase.quiet hI' hA.vecStep (hA.quiet hI (s' := .left) hk' (fun hh => hkk hh.1))
          (hA.quiet hI (s' := .right) hk' (fun hh => hkk hh.1)) (hO.phase _ _ hk')
    generalize hS : S (t + 1) = S' at hstep
    have hvc : ∀ {v c}, S' = ⟨v, c⟩ → (S (t + 1)).vec = v ∧ (S (t + 1)).cmp = c := by
      intro v c he; rw [hS, he]; exact ⟨rfl, rfl⟩
    cases hstep with
    | vec u κ' hs ho =>
      obtain ⟨hv, hc⟩ := hvc rfl
      have hvs : VecStep (S t) (S (t + 1)) := by
        intro u'
        rw [hv]
        by_cases hu : u' = u
        · subst hu; rw [upd_same]; exact .inr hs
        · rw [upd_other _ _ hu]; exact .inl rfl
      have hquiet : ∀ {k T s}, (S t).cmp k = some T →
          Quiet ((S t).vec (T.vecOf s)) ((S (t + 1)).vec (T.vecOf s)) (T.cid s) := by
        intro k T s hk
        refine ⟨hvs _, ?_⟩
        by_cases hu : T.vecOf s = u
        · rw [hv, hu, upd_same]; exact ho k T s hk hu
        · rw [hv, upd_other _ _ hu]
      refine ⟨⟨fun u' => ?_, fun k T s hk => ?_, fun k T s k' T' s' hk hk' => ?_⟩, fun k T hk => ?_⟩
      · rcases hvs u' with he | he
        · rw [he]; exact hI.reach _
        · exact .step (hI.reach _) he
      · rw [hc] at hk
        refine Nat.lt_of_lt_of_le (hI.ids _ _ _ hk) ?_
        rcases hvs (T.vecOf s) with he | he
        · rw [he]; exact Nat.le_refl _
        · exact he.next_le
      · rw [hc] at hk hk'; exact hI.distinct _ _ _ _ _ _ hk hk'
      · rw [hc] at hk
        exact Phase.quiet hI' hvs (hquiet (s := .left) hk) (hquiet (s := .right) hk) (hO.phase _ _ hk)
    | start k u v p q veq hk hp hq =>
      obtain ⟨hv, hc⟩ := hvc rfl
      have hvs : VecStep (S t) (S (t + 1)) := fun u' => .inl (by rw [hv])
      have hold : ∀ {k' T'}, (S (t + 1)).cmp k' = some T' → (k' = k ∧ T' = ⟨u, v, p, q, veq, .compare veq p q, fun _ => []⟩) ∨
          (S t).cmp k' = some T' := by
        intro k' T' hk'
        rw [hc] at hk'
        by_cases hkk : k' = k
        · subst hkk
          simp only [upd_same, Option.some.injEq] at hk'
          exact .inl ⟨rfl, hk'.symm⟩
        · rw [upd_other _ _ hkk] at hk'
          exact .inr hk'
      refine ⟨⟨fun u' => ?_, fun k' T s hk' => ?_, fun k1 T1 s1 k2 T2 s2 h1 h2 hne hvv hcc => ?_⟩, fun k' T hk' => ?_⟩
      · rw [hv]; exact hI.reach _
      · rw [hv]
        rcases hold hk' with ⟨rfl, rfl⟩ | hk'
        · exact (hI' _).pos
        · exact hI.ids _ _ _ hk'
      · rcases hold h1 with ⟨rfl, rfl⟩ | h1'
        · rfl
        · rcases hold h2 with ⟨rfl, rfl⟩ | h2'
          · rw [hcc]; rfl
          · exact hI.distinct _ _ _ _ _ _ h1' h2' hne hvv hcc
      · rcases hold hk' with ⟨rfl, rfl⟩ | hk'
        · exact .start (by rw [hv]; exact hp) (by rw [hv]; exact hq) rfl
        · exact Phase.quiet hI' hvs ⟨hvs _, by rw [hv]⟩ ⟨hvs _, by rw [hv]⟩ (hO.phase _ _ hk')
    | call k T s op K κ hk ht hκ hn hp =>
      subst hκ
      obtain ⟨hv, hc⟩ := hvc rfl
      exact main (Acts.call hI hm hk hn hp hv hc) (Phase.call hI hm hk hn hp hv hc ht)
    | step k T s K κ r a again g w' b hk ht hκ hcl hr he =>
      subst hκ
      obtain ⟨hv, hc⟩ := hvc rfl
      exact main (Acts.open hI hm hk hcl (.act _ _ _ _ _ _ _ _ hcl hr he) rfl hv hc) (Phase.step hI hm hk hcl hr he hv hc ht)
    | finStep k T s K κ r a again g w' b hk ht hκ hcl hr he =>
      subst hκ
      obtain ⟨hv, hc⟩ := hvc rfl
      have hc' : (S (t + 1)).cmp = upd (S t).cmp k (some { T with prog := .fin s K }) := by
        rw [hc, ← Cmp.eta ht]
        funext k'
        simp only [upd_apply]
        split
        · rename_i h; rw [h, hk]
        · rfl
      refine main (Acts.open hI hm hk hcl (.act _ _ _ _ _ _ _ _ hcl hr he) rfl hv hc') fun hP => ?_
      rw [← Cmp.eta ht]
      exact Phase.finStep hI hm hk hcl hr he hv hc ht hP
    | finRet k T s K κ r z hk ht hκ hcl hr =>
      subst hκ
      obtain ⟨hv, hc⟩ := hvc rfl
      exact main (Acts.open hI hm hk hcl (.ret _ _ _ _ hcl hr) rfl hv hc) (Phase.finRet hI hm hk hcl hr hv hc ht)
    | panic k T s κ r pk hk ht hκ hcl hr =>
      subst hκ
      exact ((hO.phase _ _ hk).no_panic hI hm hcl hr ht).elim
    | ub k T s κ r a again g hk ht hκ hcl hr he =>
      subst hκ
      have := (Reach.step (hI.reach _) (.ub _ _ _ _ _ _ hcl hr he)).inv (hm _)
      exact absurd this.noUB (by simp)

end Verif
