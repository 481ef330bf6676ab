import Verif.Weak.CompareElem
import Verif.Proof.Compare
import Verif.Weak.Taken
import Verif.Weak.Alone

/-!
# The invariant of comparisons under weak memory, for C60

Helper file (no property statements).
-/

namespace Verif.Weak

variable {α β : Type} {m : Nat → Mem α} {l : Nat → List α}

/-! ## Vectors and call identifiers -/

/-- The invariant of one vector holds. -/
def Fine (κ : Cfg α β) : Prop := ∃ D mx k K K0, WInv D mx k κ K K0

theorem At.quiet' {κ κ' : Cfg α β} {c : Cid} {e : Nat} {s : Stage α} (ha : At κ c e s) (h : Fine κ) (hq : Quiet κ κ' c) : At κ' c e s := by
  obtain ⟨D, mx, k, K, K0, h⟩ := h
  exact ha.quiet h hq

/-- Call `c` is over. -/
def Cfg.Ends (κ : Cfg α β) (c : Cid) : Prop := ∃ r, κ.calls c = some r ∧ r.Over

/-- Every vector on its own is used as in `Weak/Model.lean`; different operands use different calls; a comparison makes one call after the
other on either side. -/
structure SysInv (m : Nat → Mem α) (S : Sys α β) : Prop where
  reach : ∀ u, Reach (m u) (S.vec u)
  ids : ∀ k T s, S.cmp k = some T → T.cid s < (S.vec (T.vecOf s)).next
  distinct : ∀ k T s k' T' s', S.cmp k = some T → S.cmp k' = some T' → ¬ (k = k' ∧ s = s') → T.vecOf s = T'.vecOf s' →
    T.cid s = T'.cid s' → T.cid s = 0
  hb : ∀ k T s, S.cmp k = some T → ∀ c ∈ T.hb s, (S.vec (T.vecOf s)).Ends c
  past : ∀ k T s, S.cmp k = some T → ∀ c ∈ T.own s, c ≠ T.cid s → (S.vec (T.vecOf s)).Ends c
  after : ∀ k T s, S.cmp k = some T → ∀ cs c ds, T.own s = cs ++ c :: ds → ∀ d ∈ T.hb s ++ ds, (S.vec (T.vecOf s)).HB d c

/-- Every vector makes one step or none. -/
def VecStep (S S' : Sys α β) : Prop := ∀ u, S'.vec u = S.vec u ∨ Step (S.vec u) (S'.vec u)

/-- What stays as it is during a comparison. -/
structure Cmp.Keeps (T T' : Cmp α β) : Prop where
  u : T'.u = T.u
  v : T'.v = T.v
  p : T'.p = T.p
  q : T'.q = T.q
  veq : T'.veq = T.veq
  hb : T'.hb = T.hb
  own : ∀ s c, c ∈ T.own s → c ∈ T'.own s

theorem Cmp.Keeps.refl (T : Cmp α β) : T.Keeps T := ⟨rfl, rfl, rfl, rfl, rfl, rfl, fun _ _ h => h⟩

theorem Cmp.Keeps.vecOf {T T' : Cmp α β} (h : T.Keeps T') (s : Side) : T'.vecOf s = T.vecOf s := by
  cases s
  · exact h.u
  · exact h.v

/-- Thread `k` acts through its call on side `s`. -/
structure Acts (S S' : Sys α β) (k : Nat) (T : Cmp α β) (s : Side) (T' : Cmp α β) : Prop where
  cmp : S.cmp k = some T
  cmp' : S'.cmp = upd S.cmp k (some T')
  vec : ∃ κ', S'.vec = upd S.vec (T.vecOf s) κ' ∧ Step (S.vec (T.vecOf s)) κ' ∧ T'.cid s < κ'.next ∧
    ∀ c, c ≠ T'.cid s → κ'.calls c = (S.vec (T.vecOf s)).calls c
  pos : 0 < T'.cid s
  mine : T'.cid s = T.cid s ∨ T'.cid s = (S.vec (T.vecOf s)).next
  other : ∀ s', s' ≠ s → T'.cid s' = T.cid s'
  past : ∀ s', ∀ c ∈ T'.own s', c ≠ T'.cid s' → (S.vec (T.vecOf s')).Ends c
  after : ∀ s' cs c ds, T'.own s' = cs ++ c :: ds → ∀ d ∈ T.hb s' ++ ds, (S.vec (T.vecOf s')).HB d c ∨ (S'.vec (T.vecOf s')).HB d c
  keeps : T.Keeps T'

section acts

variable {S S' : Sys α β} {k : Nat} {T T' : Cmp α β} {s : Side}

theorem SysInv.ends (hI : SysInv m S) (hv : VecStep S S') {u : Nat} {c : Cid} (h : (S.vec u).Ends c) : (S'.vec u).Ends c := by
  rcases hv u with he | hs
  · rw [he]; exact h
  · obtain ⟨r, h1, h2⟩ := h
    exact ⟨r, hs.over (hI.reach u).new h1 h2, h2⟩

theorem SysInv.hbs (hI : SysInv m S) (hv : VecStep S S') {u : Nat} {c d : Cid} (h : (S.vec u).HB c d) : (S'.vec u).HB c d := by
  rcases hv u with he | hs
  · rw [he]; exact h
  · exact (hs.extends (hI.reach u).new).hb h

theorem SysInv.returned (hI : SysInv m S) (hv : VecStep S S') {u : Nat} {c : Cid} {op : Op α β} {x : Ret α β}
    (h : (S.vec u).Returned c op x) : (S'.vec u).Returned c op x := by
  rcases hv u with he | hs
  · rw [he]; exact h
  · exact hs.returned (hI.reach u).new h

theorem SysInv.revealed (hI : SysInv m S) (hv : VecStep S S') {u : Nat} {H H' : List Cid} (hH : ∀ c ∈ H, c ∈ H') {i : Nat}
    (h : (S.vec u).Revealed H i) : (S'.vec u).Revealed H' i := by
  obtain ⟨c, hc, r, x, h1, h2, h3⟩ := h
  refine ⟨c, hH c hc, r, x, ?_, h2, h3⟩
  rcases hv u with he | hs
  · rw [he]; exact h1
  · exact hs.over (hI.reach u).new h1 (.inl ⟨x, h2⟩)

theorem Acts.vecStep (h : Acts S S' k T s T') : VecStep S S' := by
  intro u
  obtain ⟨κ', hv, hs, -⟩ := h.vec
  rw [hv]
  by_cases hu : u = T.vecOf s
  · subst hu; right; simpa using hs
  · left; simp [hu]

theorem Acts.quiet (h : Acts S S' k T s T') (hI : SysInv m S) {k' : Nat} {T1 : Cmp α β} {s' : Side}
    (hk : S.cmp k' = some T1) (hne : ¬ (k' = k ∧ s' = s)) :
    Quiet (S.vec (T1.vecOf s')) (S'.vec (T1.vecOf s')) (T1.cid s') := by
  obtain ⟨κ', hv, hs, -, hc⟩ := h.vec
  refine ⟨h.vecStep _, ?_⟩
  rw [hv]
  by_cases hu : T1.vecOf s' = T.vecOf s
  · rw [hu]
    simp only [upd_same]
    refine hc _ ?_
    intro he
    rcases h.mine with hm | hm
    · rw [hm] at he
      have := hI.distinct _ _ _ _ _ _ hk h.cmp hne hu he
      have hp := h.pos
      rw [hm, ← he, this] at hp
      exact Nat.lt_irrefl _ hp
    · rw [hm, ← hu] at he
      have := hI.ids _ _ s' hk
      rw [he] at this
      exact Nat.lt_irrefl _ this
  · rw [upd_other _ _ hu]

theorem VecStep.next_le (hv : VecStep S S') (u : Nat) : (S.vec u).next ≤ (S'.vec u).next := by
  rcases hv u with he | hs
  · rw [he]
  · exact hs.next_le

theorem VecStep.reach (hv : VecStep S S') (hI : SysInv m S) (u : Nat) : Reach (m u) (S'.vec u) := by
  rcases hv u with he | hs
  · rw [he]; exact hI.reach u
  · exact .step (hI.reach u) hs

/-- The vectors make a step, and no comparison. -/
theorem SysInv.vec (hI : SysInv m S) (hv : VecStep S S') (hc : S'.cmp = S.cmp) : SysInv m S' where
  reach := hv.reach hI
  ids k T s hk := by rw [hc] at hk; exact Nat.lt_of_lt_of_le (hI.ids _ _ _ hk) (hv.next_le _)
  distinct := by rw [hc]; exact hI.distinct
  hb k T s hk c h := by rw [hc] at hk; exact hI.ends hv (hI.hb k T s hk c h)
  past k T s hk c h hne := by rw [hc] at hk; exact hI.ends hv (hI.past k T s hk c h hne)
  after k T s hk cs c ds ho d hd := by rw [hc] at hk; exact hI.hbs hv (hI.after k T s hk cs c ds ho d hd)

theorem Acts.inv (h : Acts S S' k T s T') (hI : SysInv m S) : SysInv m S' := by
  have hv := h.vecStep
  obtain ⟨κ', hv', hs, hlt, -⟩ := h.vec
  have hcid : ∀ k1 T1 s1, S'.cmp k1 = some T1 → (k1 = k ∧ s1 = s ∧ T1 = T') ∨
      (¬ (k1 = k ∧ s1 = s) ∧ ∃ T0, S.cmp k1 = some T0 ∧ T1.vecOf s1 = T0.vecOf s1 ∧ T1.cid s1 = T0.cid s1) := by
    intro k1 T1 s1 h1
    rw [h.cmp'] at h1
    by_cases hk : k1 = k
    · subst hk
      simp only [upd_same, Option.some.injEq] at h1
      subst h1
      by_cases hss : s1 = s
      · exact .inl ⟨rfl, hss, rfl⟩
      · exact .inr ⟨fun hh => hss hh.2, T, h.cmp, h.keeps.vecOf _, h.other _ hss⟩
    · rw [upd_other _ _ hk] at h1
      exact .inr ⟨fun hh => hk hh.1, T1, h1, rfl, rfl⟩
  have key : ∀ {k1 T1 s1}, S'.cmp k1 = some T1 → ¬ (k1 = k ∧ s1 = s) → T1.vecOf s1 = T'.vecOf s → T1.cid s1 = T'.cid s →
      False := by
    intro k1 T1 s1 h1 hne hvv hcc
    rcases hcid _ _ s1 h1 with ⟨rfl, rfl, -⟩ | ⟨-, T0, h0, e1, e2⟩
    · exact hne ⟨rfl, rfl⟩
    · rw [h.keeps.vecOf, e1] at hvv
      rw [e2] at hcc
      rcases h.mine with hm | hm
      · rw [hm] at hcc
        have h3 := hI.distinct _ _ _ _ _ _ h0 h.cmp hne hvv hcc
        have hp := h.pos
        rw [hm, ← hcc, h3] at hp
        exact Nat.lt_irrefl _ hp
      · rw [hm, ← hvv] at hcc
        have := hI.ids _ _ s1 h0
        rw [hcc] at this
        exact Nat.lt_irrefl _ this
  have hold : ∀ k1 T1, S'.cmp k1 = some T1 → (k1 = k ∧ T1 = T') ∨ S.cmp k1 = some T1 := by
    intro k1 T1 h1
    rw [h.cmp'] at h1
    by_cases hk : k1 = k
    · subst hk
      simp only [upd_same, Option.some.injEq] at h1
      exact .inl ⟨rfl, h1.symm⟩
    · rw [upd_other _ _ hk] at h1
      exact .inr h1
  refine ⟨hv.reach hI, fun k1 T1 s1 h1 => ?_, fun k1 T1 s1 k2 T2 s2 h1 h2 hne hvv hcc => ?_, fun k1 T1 s1 h1 c hc => ?_,
    fun k1 T1 s1 h1 c hc hne => ?_, fun k1 T1 s1 h1 cs c ds ho d hd => ?_⟩
  · rcases hcid _ _ s1 h1 with ⟨rfl, rfl, rfl⟩ | ⟨-, T0, h0, e1, e2⟩
    · rw [h.keeps.vecOf, hv', upd_same]; exact hlt
    · rw [e1, e2]; exact Nat.lt_of_lt_of_le (hI.ids _ _ _ h0) (hv.next_le _)
  · rcases hcid _ _ s1 h1 with ⟨rfl, rfl, rfl⟩ | ⟨n1, T0, h0, e1, e2⟩
    · exact (key h2 (fun hh => hne ⟨hh.1.symm, hh.2.symm⟩) hvv.symm hcc.symm).elim
    · rcases hcid _ _ s2 h2 with ⟨rfl, rfl, rfl⟩ | ⟨n2, T3, h3, e3, e4⟩
      · exact (key h1 hne hvv hcc).elim
      · rw [e2] at hcc ⊢
        rw [e1, e3] at hvv
        rw [e4] at hcc
        exact hI.distinct _ _ _ _ _ _ h0 h3 hne hvv hcc
  · rcases hold _ _ h1 with ⟨rfl, rfl⟩ | h1
    · rw [h.keeps.hb] at hc
      rw [h.keeps.vecOf]
      exact hI.ends hv (hI.hb _ _ _ h.cmp c hc)
    · exact hI.ends hv (hI.hb _ _ _ h1 c hc)
  · rcases hold _ _ h1 with ⟨rfl, rfl⟩ | h1
    · rw [h.keeps.vecOf]
      exact hI.ends hv (h.past _ c hc hne)
    · exact hI.ends hv (hI.past _ _ _ h1 c hc hne)
  · rcases hold _ _ h1 with ⟨rfl, rfl⟩ | h1
    · rw [h.keeps.vecOf]
      rw [h.keeps.hb] at hd
      rcases h.after _ cs c ds ho d hd with h' | h'
      · exact hI.hbs hv h'
      · exact h'
    · exact hI.hbs hv (hI.after _ _ _ h1 cs c ds ho d hd)

end acts

/-! ## What a comparison has found out -/

section hist

variable {S : Nat → Sys α β} {n k b b' : Nat} {T T' : Cmp α β} {es fs : List Nat} {ps : List (α × α)}

theorem PairAt.keeps {e f : Nat} {x y : α} {t : Nat} (h : PairAt S k T e f x y t) (hk : T.Keeps T') : PairAt S k T' e f x y t := by
  obtain ⟨h1, h2, h3⟩ := h
  exact ⟨h1, by rw [hk.u]; exact h2, by rw [hk.v]; exact h3⟩

theorem Cmp.Keeps.results (hk : T.Keeps T') : T'.results ps = T.results ps := by rw [Cmp.results, Cmp.results, hk.veq]

theorem Sys.Found.mono {S S' : Sys α β} (hI : SysInv m S) (hv : VecStep S S') (hk : T.Keeps T') {s : Side} {e : Nat} {x : α}
    (h : S.Found T s e x) : S'.Found T' s e x := by
  obtain ⟨c, h1, h2⟩ := h
  refine ⟨c, hk.own _ _ h1, ?_⟩
  rw [hk.vecOf]
  exact hI.returned hv h2

theorem Sys.Elements.mono {S S' : Sys α β} (hI : SysInv m S) (hv : VecStep S S') (hk : T.Keeps T')
    {s : Side} (h : S.Elements T s es) : S'.Elements T' s es := by
  have ha : T'.arg s = T.arg s := by
    cases s
    · exact hk.p
    · exact hk.q
  simp only [Sys.Elements, ha] at h ⊢
  cases hp : T.arg s with
  | vec =>
    simp only [hp] at h ⊢
    obtain ⟨c, hc, hr⟩ := h
    refine ⟨c, hk.own _ _ hc, ?_⟩
    rw [hk.vecOf]
    exact hI.returned hv hr
  | slc t => simpa only [hp] using h
  | el e => simpa only [hp] using h

/-- The calls which the comparison made or after which it happens gave it references to these elements. -/
def Cmp.Knows (T : Cmp α β) (S : Sys α β) (s : Side) (es : List Nat) : Prop :=
  ∀ i ∈ es, (S.vec (T.vecOf s)).Revealed (T.hb s ++ T.own s) i

theorem Cmp.Knows.mono {S S' : Sys α β} (hI : SysInv m S) (hv : VecStep S S') (hk : T.Keeps T') {s : Side} (h : T.Knows S s es) :
    T'.Knows S' s es := by
  intro i hi
  rw [hk.vecOf]
  refine hI.revealed hv (fun c hc => ?_) (h i hi)
  rw [hk.hb]
  rcases List.mem_append.1 hc with hc | hc
  · exact List.mem_append_left _ hc
  · exact List.mem_append_right _ (hk.own _ _ hc)

/-- What a comparison knows when it has compared the first pairs, all of them before moment `b`. -/
structure Hist (S : Nat → Sys α β) (n k : Nat) (T : Cmp α β) (es fs : List Nat) (ps : List (α × α)) (b : Nat) : Prop where
  left : (S n).Elements T .left es
  right : (S n).Elements T .right fs
  revL : T.Knows (S n) .left es
  revR : T.Knows (S n) .right fs
  cmp : ∃ τ, Compared S n k T es fs ps τ ∧ ∀ i, i < ps.length → τ i < b
  diff : T.u = T.v → ∀ i e, i < ps.length → es[i]? = some e → fs[i]? ≠ some e

theorem Hist.mono (h : Hist S n k T es fs ps b) (hI : SysInv m (S n)) (hv : VecStep (S n) (S (n + 1)))
    (hk : T.Keeps T') (hb : b ≤ b') : Hist S (n + 1) k T' es fs ps b' where
  left := h.left.mono hI hv hk
  right := h.right.mono hI hv hk
  revL := h.revL.mono hI hv hk
  revR := h.revR.mono hI hv hk
  cmp := by
    obtain ⟨τ, ⟨h1, h2⟩, h3⟩ := h.cmp
    refine ⟨τ, ⟨fun i x y hr => ?_, h2⟩, fun i hi => Nat.lt_of_lt_of_le (h3 i hi) hb⟩
    obtain ⟨h3, e, f, h4, h5, h6, h7, h8⟩ := h1 i x y hr
    exact ⟨Nat.le_succ_of_le h3, e, f, h4, h5, h6.keeps hk, h7.mono hI hv hk, h8.mono hI hv hk⟩
  diff := by rw [hk.u, hk.v]; exact h.diff

/-- One more pair is compared. -/
theorem Hist.snoc {t : Nat} (h : Hist S n k T es fs ps t) {e f : Nat} {x y : α} (he : es[ps.length]? = some e) (hf : fs[ps.length]? = some f)
    (hp : PairAt S k T e f x y t) (ht : t ≤ n) (hl : (S n).Found T .left e x) (hr : (S n).Found T .right f y)
    (hd : T.u = T.v → e ≠ f) : Hist S n k T es fs (ps ++ [(x, y)]) (n + 1) where
  left := h.left
  right := h.right
  revL := h.revL
  revR := h.revR
  diff := by
    intro huv i e' hi h1 h2
    by_cases hi' : i = ps.length
    · subst hi'
      rw [he] at h1
      rw [hf] at h2
      cases h1
      cases h2
      exact hd huv rfl
    · simp only [List.length_append, List.length_singleton] at hi
      exact h.diff huv i e' (by omega) h1 h2
  cmp := by
    obtain ⟨τ, ⟨h1, h2⟩, h3⟩ := h.cmp
    refine ⟨upd τ ps.length t, ⟨fun i x' y' hr' => ?_, fun i i' hii hi => ?_⟩, fun i hi => ?_⟩
    · by_cases hi : i = ps.length
      · subst hi
        simp at hr'
        obtain ⟨rfl, rfl⟩ := hr'
        rw [upd_same]
        exact ⟨ht, e, f, he, hf, hp, hl, hr⟩
      · have hlt : i < ps.length := by
          have := (List.getElem?_eq_some_iff.1 hr').1
          simp at this
          omega
        rw [List.getElem?_append_left hlt] at hr'
        rw [upd_other _ _ hi]
        exact h1 i x' y' hr'
    · simp only [List.length_append, List.length_singleton] at hi
      by_cases hi' : i' = ps.length
      · subst hi'
        rw [upd_same, upd_other _ _ (by omega)]
        exact h3 i hii
      · rw [upd_other _ _ hi', upd_other _ _ (by omega)]
        exact h2 i i' hii (by omega)
    · simp only [List.length_append, List.length_singleton] at hi
      by_cases hi' : i = ps.length
      · subst hi'
        rw [upd_same]; omega
      · rw [upd_other _ _ hi']
        have := h3 i (by omega)
        omega

theorem Hist.le (h : Hist S n k T es fs ps b) : ps.length ≤ es.length ∧ ps.length ≤ fs.length := by
  obtain ⟨τ, ⟨h1, -⟩, -⟩ := h.cmp
  rcases Nat.eq_zero_or_pos ps.length with h0 | h0
  · omega
  · have hlt : ps.length - 1 < ps.length := by omega
    obtain ⟨-, e, f, h2, h3, -⟩ := h1 (ps.length - 1) ps[ps.length - 1].1 ps[ps.length - 1].2 (List.getElem?_eq_getElem hlt)
    have h4 := (List.getElem?_eq_some_iff.1 h2).1
    have h5 := (List.getElem?_eq_some_iff.1 h3).1
    omega

end hist

/-! ## How far a comparison is -/

/-- No call of the comparison on this side is running. -/
def Cmp.Rests (T : Cmp α β) (S : Sys α β) (s : Side) : Prop := ∀ c ∈ T.own s, (S.vec (T.vecOf s)).Ends c

theorem Cmp.Rests.mono {S S' : Sys α β} {T T' : Cmp α β} {s : Side} (h : T.Rests S s) (hI : SysInv m S) (hv : VecStep S S')
    (hk : T.Keeps T') (ho : T'.own s = T.own s) : T'.Rests S' s := by
  intro c hc
  rw [ho] at hc
  rw [hk.vecOf]
  exact hI.ends hv (h c hc)

/-- The two handles are being taken and the values read. -/
inductive Locking (S : Sys α β) (T : Cmp α β) (e f : Nat) (K : Client α β) : Prop where
  | callL (rl : T.Rests S .left) (rr : T.Rests S .right) (h : T.prog = .eqElem T.veq e f K)
  | lockL (rr : T.Rests S .right) (hl : At (S.vec T.u) (T.cid .left) e .wait) (h : T.prog = .step .left (.gotL T.veq f K))
  | callR (rr : T.Rests S .right) (hl : At (S.vec T.u) (T.cid .left) e .held) (h : T.prog = .gotL T.veq f K)
  | lockR (hl : At (S.vec T.u) (T.cid .left) e .held) (hr : At (S.vec T.v) (T.cid .right) f .wait)
      (h : T.prog = (.step .right <| .step .left <| .step .right <| .judge T.veq K))
  | readL (hl : At (S.vec T.u) (T.cid .left) e .held) (hr : At (S.vec T.v) (T.cid .right) f .held)
      (h : T.prog = (.step .left <| .step .right <| .judge T.veq K))
  | readR (x : α) (hl : At (S.vec T.u) (T.cid .left) e (.read x)) (hr : At (S.vec T.v) (T.cid .right) f .held)
      (h : T.prog = (.step .right <| .judge T.veq K))

/-- The two values have been read, the handles are being released. -/
inductive Judging (S : Sys α β) (T : Cmp α β) (e f : Nat) (K : Client α β) (x y : α) : Prop where
  | both (hl : At (S.vec T.u) (T.cid .left) e (.read x)) (hr : At (S.vec T.v) (T.cid .right) f (.read y))
      (h : T.prog = .judge T.veq K)
  | unlR (hl : At (S.vec T.u) (T.cid .left) e (.read x)) (hr : At (S.vec T.v) (T.cid .right) f (.free y))
      (h : T.prog = .judge T.veq K)
  | left (rr : T.Rests S .right) (hf : S.Found T .right f y) (hl : At (S.vec T.u) (T.cid .left) e (.read x))
      (h : T.prog = .fin .left fun r => .verdict T.veq K r (.val y))
  | unlL (rr : T.Rests S .right) (hf : S.Found T .right f y) (hl : At (S.vec T.u) (T.cid .left) e (.free x))
      (h : T.prog = .fin .left fun r => .verdict T.veq K r (.val y))

/-- All pairs are equal. -/
abbrev Cmp.AllEq (T : Cmp α β) (ps : List (α × α)) : Prop := T.results ps = List.replicate ps.length (some true)

/-- How far the comparison `T` of thread `k` is at moment `n`. -/
inductive Phase (S : Nat → Sys α β) (n k : Nat) (T : Cmp α β) : Prop where
  | callL (hp : T.p = .vec) (hq : T.Knows (S n) .right T.q.needs) (rl : T.Rests (S n) .left) (rr : T.Rests (S n) .right)
      (h : T.prog = (.call .left .iter <| .fin .left <| .onElems fun es => .iter .right T.q fun fs => .loop T.veq es fs))
  | finL (hp : T.p = .vec) (hq : T.Knows (S n) .right T.q.needs) (rr : T.Rests (S n) .right)
      (hc : ((S n).vec T.u).Running (T.cid .left) .iter)
      (h : T.prog = (.fin .left <| .onElems fun es => .iter .right T.q fun fs => .loop T.veq es fs))
  | callR (es : List Nat) (hq : T.q = .vec) (hl : (S n).Elements T .left es) (hr : T.Knows (S n) .left es)
      (rl : T.Rests (S n) .left) (rr : T.Rests (S n) .right)
      (h : T.prog = (.call .right .iter <| .fin .right <| .onElems fun fs => .loop T.veq es fs))
  | finR (es : List Nat) (hq : T.q = .vec) (hl : (S n).Elements T .left es) (hr : T.Knows (S n) .left es)
      (rl : T.Rests (S n) .left) (hc : ((S n).vec T.v).Running (T.cid .right) .iter)
      (h : T.prog = (.fin .right <| .onElems fun fs => .loop T.veq es fs))
  | locking (es fs : List Nat) (ps : List (α × α)) (e f : Nat) (hH : Hist S n k T es fs ps (n + 1)) (hv : T.AllEq ps)
      (he : es[ps.length]? = some e) (hf : fs[ps.length]? = some f)
      (h : Locking (S n) T e f (.loop T.veq (es.drop (ps.length + 1)) (fs.drop (ps.length + 1))))
  | judging (es fs : List Nat) (ps : List (α × α)) (e f : Nat) (x y : α) (t : Nat) (hH : Hist S n k T es fs ps t) (hv : T.AllEq ps)
      (he : es[ps.length]? = some e) (hf : fs[ps.length]? = some f) (ht : t ≤ n) (hp : PairAt S k T e f x y t) (hd : T.u = T.v → e ≠ f)
      (h : Judging (S n) T e f (.loop T.veq (es.drop (ps.length + 1)) (fs.drop (ps.length + 1))) x y)
  | ret (es fs : List Nat) (ps : List (α × α)) (b : Bool) (hH : Hist S n k T es fs ps (n + 1)) (hv : Verdict es fs (T.results ps) b)
      (h : T.prog = .ret b) (rl : T.Rests (S n) .left) (rr : T.Rests (S n) .right)
  | fail (es fs : List Nat) (ps : List (α × α)) (j : Nat) (hH : Hist S n k T es fs ps (n + 1))
      (hv : T.results ps = List.replicate j (some true) ++ [none]) (h : T.prog = .panic .userCode)
      (rl : T.Rests (S n) .left) (rr : T.Rests (S n) .right)

section phase

variable {S : Nat → Sys α β} {n k : Nat} {T T' : Cmp α β}

/-- The comparison comes to the next pair. -/
theorem Phase.enter {es fs : List Nat} {ps : List (α × α)} (hH : Hist S n k T es fs ps (n + 1)) (hv : T.AllEq ps)
    (rl : T.Rests (S n) .left) (rr : T.Rests (S n) .right)
    (h : T.prog = .loop T.veq (es.drop ps.length) (fs.drop ps.length)) : Phase S n k T := by
  have hle := hH.le
  rcases he : es[ps.length]? with _ | e
  · have h1 : es.length = ps.length := by
      have := List.getElem?_eq_none_iff.1 he
      omega
    rcases hf : fs[ps.length]? with _ | f
    · have h2 : fs.length = ps.length := by
        have := List.getElem?_eq_none_iff.1 hf
        omega
      refine .ret es fs _ true hH (by rw [hv, ← h1]; exact .equal (by omega)) ?_ rl rr
      rw [h, List.drop_eq_nil_of_le (by omega), List.drop_eq_nil_of_le (by omega)]
      rfl
    · obtain ⟨hlt, -⟩ := List.getElem?_eq_some_iff.1 hf
      have hmin : min es.length fs.length = ps.length := by omega
      refine .ret es fs _ false hH (by rw [hv, ← hmin]; exact .length (by omega)) ?_ rl rr
      rw [h, List.drop_eq_nil_of_le (by omega), List.drop_eq_getElem_cons hlt]
      rfl
  · obtain ⟨hlt, he'⟩ := List.getElem?_eq_some_iff.1 he
    rcases hf : fs[ps.length]? with _ | f
    · have h2 : fs.length = ps.length := by
        have := List.getElem?_eq_none_iff.1 hf
        omega
      have hmin : min es.length fs.length = ps.length := by omega
      refine .ret es fs _ false hH (by rw [hv, ← hmin]; exact .length (by omega)) ?_ rl rr
      rw [h, List.drop_eq_nil_of_le (as := fs) (by omega), List.drop_eq_getElem_cons hlt]
      rfl
    · obtain ⟨hlt', hf'⟩ := List.getElem?_eq_some_iff.1 hf
      refine .locking es fs ps e f hH hv he hf (.callL rl rr ?_)
      rw [h, List.drop_eq_getElem_cons hlt, List.drop_eq_getElem_cons hlt', he', hf']
      rfl

/-- The comparison of pairs begins. -/
theorem Phase.first {es fs : List Nat} (hl : (S n).Elements T .left es) (hr : (S n).Elements T .right fs) (kl : T.Knows (S n) .left es)
    (kr : T.Knows (S n) .right fs) (rl : T.Rests (S n) .left) (rr : T.Rests (S n) .right) (h : T.prog = .loop T.veq es fs) :
    Phase S n k T :=
  Phase.enter (ps := []) ⟨hl, hr, kl, kr, ⟨fun _ => 0, ⟨fun i x y hr => by simp at hr, fun i i' _ hi => by simp at hi⟩,
    fun i hi => by simp at hi⟩, fun _ i e hi => by simp at hi⟩ rfl rl rr (by simpa using h)

/-- The elements of the left operand are known. -/
theorem Phase.afterL {es : List Nat} (hl : (S n).Elements T .left es) (hr : T.Knows (S n) .left es)
    (hq : T.Knows (S n) .right T.q.needs) (rl : T.Rests (S n) .left) (rr : T.Rests (S n) .right)
    (h : T.prog = .iter .right T.q fun fs => .loop T.veq es fs) : Phase S n k T := by
  cases hqq : T.q with
  | vec =>
    rw [hqq] at h
    exact .callR es hqq hl hr rl rr h
  | slc t =>
    rw [hqq] at h hq
    refine .first (fs := t.view) hl ?_ hr ?_ rl rr ?_
    · simp only [Sys.Elements, Cmp.arg, hqq]
    · rw [← positions_view]; exact hq
    · rw [← positions_view]; exact h
  | el e =>
    rw [hqq] at h hq
    refine .first (fs := [e]) hl ?_ hr hq rl rr h
    simp only [Sys.Elements, Cmp.arg, hqq]

/-- The comparison begins. -/
theorem Phase.start (hp : T.Knows (S n) .left T.p.needs) (hq : T.Knows (S n) .right T.q.needs)
    (rl : T.Rests (S n) .left) (rr : T.Rests (S n) .right)
    (h : T.prog = .compare T.veq T.p T.q) : Phase S n k T := by
  rw [Client.compare] at h
  cases hpp : T.p with
  | vec =>
    rw [hpp] at h
    exact .callL hpp hq rl rr h
  | slc t =>
    rw [hpp] at h hp
    refine .afterL (es := t.view) ?_ ?_ hq rl rr ?_
    · simp only [Sys.Elements, Cmp.arg, hpp]
    · rw [← positions_view]; exact hp
    · rw [← positions_view]; exact h
  | el e =>
    rw [hpp] at h hp
    refine .afterL (es := [e]) ?_ hp hq rl rr h
    simp only [Sys.Elements, Cmp.arg, hpp]

theorem Cfg.Running.quiet {κ κ' : Cfg α β} {c : Cid} {op : Op α β} (h : κ.Running c op) (hq : Quiet κ κ' c) : κ'.Running c op := by
  obtain ⟨r, p, h1, h2⟩ := h
  exact ⟨r, p, by rw [hq.same, h1], h2⟩

/-- Others act. -/
theorem Phase.quiet (hI : SysInv m (S n)) (hW : ∀ u, Fine ((S n).vec u)) (hv : VecStep (S n) (S (n + 1)))
    (hql : Quiet ((S n).vec T.u) ((S (n + 1)).vec T.u) (T.cid .left))
    (hqr : Quiet ((S n).vec T.v) ((S (n + 1)).vec T.v) (T.cid .right)) (h : Phase S n k T) : Phase S (n + 1) k T := by
  have hk := Cmp.Keeps.refl T
  have hR : ∀ {s}, T.Rests (S n) s → T.Rests (S (n + 1)) s := fun h => h.mono hI hv hk rfl
  cases h with
  | callL hp hq rl rr h => exact .callL hp (hq.mono hI hv hk) (hR rl) (hR rr) h
  | finL hp hq rr hc h => exact .finL hp (hq.mono hI hv hk) (hR rr) (hc.quiet hql) h
  | callR es hq hl hr rl rr h => exact .callR es hq (hl.mono hI hv hk) (hr.mono hI hv hk) (hR rl) (hR rr) h
  | finR es hq hl hr rl hc h => exact .finR es hq (hl.mono hI hv hk) (hr.mono hI hv hk) (hR rl) (hc.quiet hqr) h
  | locking es fs ps e f hH hv' he hf h =>
    refine .locking es fs ps e f (hH.mono hI hv hk (Nat.le_succ _)) hv' he hf ?_
    cases h with
    | callL rl rr h => exact .callL (hR rl) (hR rr) h
    | lockL rr hl h => exact .lockL (hR rr) (hl.quiet' (hW _) hql) h
    | callR rr hl h => exact .callR (hR rr) (hl.quiet' (hW _) hql) h
    | lockR hl hr h => exact .lockR (hl.quiet' (hW _) hql) (hr.quiet' (hW _) hqr) h
    | readL hl hr h => exact .readL (hl.quiet' (hW _) hql) (hr.quiet' (hW _) hqr) h
    | readR x hl hr h => exact .readR x (hl.quiet' (hW _) hql) (hr.quiet' (hW _) hqr) h
  | judging es fs ps e f x y t hH hv' he hf ht hp hd h =>
    refine .judging es fs ps e f x y t (hH.mono hI hv hk (Nat.le_refl _)) hv' he hf (Nat.le_succ_of_le ht) hp hd ?_
    cases h with
    | both hl hr h => exact .both (hl.quiet' (hW _) hql) (hr.quiet' (hW _) hqr) h
    | unlR hl hr h => exact .unlR (hl.quiet' (hW _) hql) (hr.quiet' (hW _) hqr) h
    | left rr hf hl h => exact .left (hR rr) (hf.mono hI hv hk) (hl.quiet' (hW _) hql) h
    | unlL rr hf hl h => exact .unlL (hR rr) (hf.mono hI hv hk) (hl.quiet' (hW _) hql) h
  | ret es fs ps b hH hv' h rl rr => exact .ret es fs ps b (hH.mono hI hv hk (Nat.le_succ _)) hv' h (hR rl) (hR rr)
  | fail es fs ps j hH hv' h rl rr => exact .fail es fs ps j (hH.mono hI hv hk (Nat.le_succ _)) hv' h (hR rl) (hR rr)

/-! ## A comparison acts -/

theorem Cmp.cid_opened {s : Side} {c : Cid} {K : Client α β} : (T.opened s c K).cid s = c := Verif.Cmp.cid_opened

theorem Cmp.cid_opened_other {s s' : Side} {c : Cid} {K : Client α β} (h : s' ≠ s) : (T.opened s c K).cid s' = T.cid s' :=
  Verif.Cmp.cid_opened_other h

theorem Cmp.own_opened_other {s s' : Side} {c : Cid} {K : Client α β} (h : s' ≠ s) : (T.opened s c K).own s' = T.own s' := by
  simp [Cmp.opened, Verif.Cmp.opened, h]

theorem Cmp.keeps_opened {s : Side} {c : Cid} {K : Client α β} : T.Keeps (T.opened s c K) :=
  ⟨rfl, rfl, rfl, rfl, rfl, rfl, (Verif.Cmp.keeps_opened (T := T.toCmp)).own⟩

theorem Cmp.keeps_goesOn {K : Client α β} : T.Keeps (T.goesOn K) := ⟨rfl, rfl, rfl, rfl, rfl, rfl, fun _ _ h => h⟩

theorem Cmp.goesOn_eta {K : Client α β} (h : T.prog = K) : T.goesOn K = T := by cases T; cases h; rfl

theorem cid_mem {s : Side} (h : T.cid s ≠ 0) : T.cid s ∈ T.own s := by
  unfold Verif.Cmp.cid at h ⊢
  cases ho : T.own s with
  | nil => rw [ho] at h; exact absurd rfl h
  | cons c cs => exact List.mem_cons_self ..

theorem SysInv.called_pos {S : Sys α β} (hI : SysInv m S) {u : Nat} {c : Cid} {r : Rec α β} (h : (S.vec u).calls c = some r) : c ≠ 0 := by
  rintro rfl
  rw [(hI.reach u).zero.1] at h
  cases h

/-- Configuration after a call. -/
abbrev Cfg.invoked (κ : Cfg α β) (op : Op α β) (H : List Cid) (V : View) : Cfg α β :=
  { κ with
    calls := upd κ.calls κ.next (some ⟨op, H, V, V, .running op.prog⟩)
    next := κ.next + 1 }

theorem Acts.call {S S' : Sys α β} {s : Side} {op : Op α β} {K : Client α β} {H : List Cid} {V : View} (hI : SysInv m S)
    (hk : S.cmp k = some T) (hH : Ended (S.vec (T.vecOf s)) H V) (hb : ∀ c ∈ T.hb s ++ T.own s, c ∈ H)
    (h : ∀ i ∈ op.needs, (S.vec (T.vecOf s)).Revealed H i)
    (hp : ∀ i ∈ op.needsPtr, (S.vec (T.vecOf s)).RevealedPtr H i)
    (hv : S'.vec = upd S.vec (T.vecOf s) ((S.vec (T.vecOf s)).invoked op H V))
    (hc : S'.cmp = upd S.cmp k (some (T.opened s (S.vec (T.vecOf s)).next K))) :
    Acts S S' k T s (T.opened s (S.vec (T.vecOf s)).next K) where
  cmp := hk
  cmp' := hc
  vec := by
    refine ⟨_, hv, .call _ op H V hH h hp, ?_, fun c hne => ?_⟩
    · rw [Cmp.cid_opened]; exact Nat.lt_succ_self _
    · rw [Cmp.cid_opened] at hne
      exact upd_other _ _ hne
  pos := by rw [Cmp.cid_opened]; exact (hI.reach _).zero.2
  mine := .inr Cmp.cid_opened
  other s' hs := Cmp.cid_opened_other hs
  past s' c hc hne := by
    by_cases hs : s' = s
    · subst hs
      rw [Cmp.cid_opened] at hne
      simp only [Cmp.opened, Verif.Cmp.opened, if_true] at hc
      rcases List.mem_cons.1 hc with rfl | hc
      · exact absurd rfl hne
      · exact ended_over hH c (hb c (List.mem_append_right _ hc))
    · rw [Cmp.cid_opened_other hs] at hne
      rw [Cmp.own_opened_other hs] at hc
      exact hI.past _ _ _ hk c hc hne
  after s' cs c ds ho d hd := by
    by_cases hs : s' = s
    · subst hs
      simp only [Cmp.opened, Verif.Cmp.opened, if_true] at ho
      cases cs with
      | nil =>
        simp only [List.nil_append, List.cons.injEq] at ho
        obtain ⟨rfl, rfl⟩ := ho
        right
        rw [hv, upd_same]
        exact .one (upd_same _ _ _) (hb d hd)
      | cons c' cs =>
        simp only [List.cons_append, List.cons.injEq] at ho
        exact .inl (hI.after _ _ _ hk cs c ds ho.2 d hd)
    · rw [Cmp.own_opened_other hs] at ho
      exact .inl (hI.after _ _ _ hk cs c ds ho d hd)
  keeps := Cmp.keeps_opened

theorem At.invoked {κ : Cfg α β} {e : Nat} {H : List Cid} {V : View} : At (κ.invoked (.elCloned e) H V) κ.next e .wait :=
  ⟨⟨_, upd_same _ _ _, rfl, rfl⟩, fun x hx => by cases hx⟩

/-- The comparison makes a call. -/
theorem Phase.call (hI : SysInv m (S n)) (hW : ∀ u, Fine ((S n).vec u)) {s : Side} {op : Op α β} {K : Client α β} {H : List Cid} {V : View}
    (hA : Acts (S n) (S (n + 1)) k T s (T.opened s ((S n).vec (T.vecOf s)).next K))
    (hv : (S (n + 1)).vec = upd (S n).vec (T.vecOf s) (((S n).vec (T.vecOf s)).invoked op H V))
    (ht : T.prog = .call s op K) (hP : Phase S n k T) : Phase S (n + 1) k (T.opened s ((S n).vec (T.vecOf s)).next K) := by
  have hvs : (S (n + 1)).vec (T.vecOf s) = ((S n).vec (T.vecOf s)).invoked op H V := by rw [hv, upd_same]
  clear hv
  have hv := hA.vecStep
  have hk := hA.keeps
  cases hP with
  | callL hp' hq rl rr h =>
    rw [h] at ht
    simp only [Client.call.injEq] at ht
    obtain ⟨rfl, rfl, rfl⟩ := ht
    refine .finL hp' (hq.mono hI hv hk) (rr.mono hI hv hk (Cmp.own_opened_other (by decide))) ?_ rfl
    rw [Cmp.cid_opened]
    exact ⟨_, _, (congrFun (congrArg Cfg.calls hvs) _).trans (upd_same _ _ _), rfl, rfl⟩
  | callR es hq hl hr rl rr h =>
    rw [h] at ht
    simp only [Client.call.injEq] at ht
    obtain ⟨rfl, rfl, rfl⟩ := ht
    refine .finR es hq (hl.mono hI hv hk) (hr.mono hI hv hk) (rl.mono hI hv hk (Cmp.own_opened_other (by decide))) ?_ rfl
    rw [Cmp.cid_opened]
    exact ⟨_, _, (congrFun (congrArg Cfg.calls hvs) _).trans (upd_same _ _ _), rfl, rfl⟩
  | locking es fs ps e f hH hv' he hf h =>
    refine .locking es fs ps e f (hH.mono hI hv hk (Nat.le_succ _)) hv' he hf ?_
    cases h with
    | callL rl rr h =>
      rw [h] at ht
      simp only [Client.eqElem, Client.call.injEq] at ht
      obtain ⟨rfl, rfl, rfl⟩ := ht
      refine .lockL (rr.mono hI hv hk (Cmp.own_opened_other (by decide))) ?_ rfl
      rw [Cmp.cid_opened]
      exact hvs ▸ At.invoked
    | callR rr hl h =>
      rw [h] at ht
      simp only [Client.gotL, Client.call.injEq] at ht
      obtain ⟨rfl, rfl, rfl⟩ := ht
      refine .lockR ?_ ?_ rfl
      · rw [Cmp.cid_opened_other (by decide)]
        exact hl.quiet' (hW _) (hA.quiet hI (s' := .left) hA.cmp (by simp))
      · rw [Cmp.cid_opened]
        exact hvs ▸ At.invoked
    | lockL rr hl h => rw [h] at ht; cases ht
    | lockR hl hr h => rw [h] at ht; cases ht
    | readL hl hr h => rw [h] at ht; cases ht
    | readR x hl hr h => rw [h] at ht; cases ht
  | finL hp hq rr hc h => rw [h] at ht; cases ht
  | finR es hq hl hr rl hc h => rw [h] at ht; cases ht
  | judging es fs ps e f x y t hH hv' he hf ht' hp hd h => cases h <;> rename_i h <;> rw [h] at ht <;> cases ht
  | ret es fs ps b hH hv' h => rw [h] at ht; cases ht
  | fail es fs ps j hH hv' h => rw [h] at ht; cases ht

/-- An open call of the comparison makes a step. -/
theorem Acts.open {S S' : Sys α β} {s : Side} {K : Client α β} {κ' : Cfg α β} {r r' : Rec α β} (hI : SysInv m S)
    (hk : S.cmp k = some T) (hr : (S.vec (T.vecOf s)).calls (T.cid s) = some r)
    (hs : Step (S.vec (T.vecOf s)) κ') (hcalls : κ'.calls = upd (S.vec (T.vecOf s)).calls (T.cid s) (some r'))
    (hv : S'.vec = upd S.vec (T.vecOf s) κ') (hc : S'.cmp = upd S.cmp k (some (T.goesOn K))) :
    Acts S S' k T s (T.goesOn K) where
  cmp := hk
  cmp' := hc
  vec := by
    refine ⟨_, hv, hs, Nat.lt_of_lt_of_le (hI.ids k T s hk) hs.next_le, fun c hne => ?_⟩
    rw [hcalls]
    exact upd_other _ _ hne
  pos := Nat.pos_of_ne_zero (hI.called_pos hr)
  mine := .inl rfl
  other _ _ := rfl
  past s' c hc hne := hI.past _ _ _ hk c hc hne
  after s' cs c ds ho d hd := .inl (hI.after _ _ _ hk cs c ds ho d hd)
  keeps := Cmp.keeps_goesOn

section open_

variable {s : Side} {r : Rec α β} {a : Act α} {again : a.Resp → Bool} {g : a.Resp → Prog α (Ret α β)} {t : Nat} {V : View} {w : WMem α}
  {b : a.Resp}

/-- The open call performs the action which the comparison asked for. -/
theorem Phase.step (hI : SysInv m (S n)) (hW : ∀ u, Fine ((S n).vec u)) (hW' : ∀ u, Fine ((S (n + 1)).vec u)) {K : Client α β}
    (hA : Acts (S n) (S (n + 1)) k T s (T.goesOn (if again b then .step s K else K)))
    (hcl : ((S n).vec (T.vecOf s)).calls (T.cid s) = some r)
    (hr : r.status = .running (.step a again g)) (he : exec a t r.view ((S n).vec (T.vecOf s)).mem = .ok V w b)
    (hv : (S (n + 1)).vec = upd (S n).vec (T.vecOf s)
      (((S n).vec (T.vecOf s)).acted (T.cid s) r V w (if again b then .step a again g else g b)))
    (ht : T.prog = .step s K) (hP : Phase S n k T) : Phase S (n + 1) k (T.goesOn (if again b then .step s K else K)) := by
  have hvs : (S (n + 1)).vec (T.vecOf s) =
      ((S n).vec (T.vecOf s)).acted (T.cid s) r V w (if again b then .step a again g else g b) := by rw [hv, upd_same]
  clear hv
  have hv := hA.vecStep
  cases hP with
  | locking es fs ps e f hH hv' hee hf h =>
    have hH' := hH.mono hI hv hA.keeps (Nat.le_succ _)
    have hR : ∀ {K s}, T.Rests (S n) s → (T.goesOn K).Rests (S (n + 1)) s := fun h => h.mono hI hv Cmp.keeps_goesOn rfl
    have hk := hA.cmp
    cases h with
    | callL rl rr h => rw [h] at ht; cases ht
    | callR rr hl h => rw [h] at ht; cases ht
    | lockL rr hl h =>
      rw [h] at ht
      simp only [Client.step.injEq] at ht
      obtain ⟨rfl, rfl⟩ := ht
      refine .locking es fs ps e f hH' hv' hee hf ?_
      obtain ⟨D, mx, k', K', K0, hw⟩ := hW' T.u
      rcases hl.lock hcl hr he (hvs ▸ hw) with ⟨hb, ha⟩ | ⟨hb, ha⟩
      · simp only [hb, if_true] at hvs ⊢
        exact .lockL (hR rr) (hvs ▸ ha) rfl
      · simp only [hb, Bool.false_eq_true, if_false] at hvs ⊢
        exact .callR (hR rr) (hvs ▸ ha) rfl
    | lockR hl hr' h =>
      rw [h] at ht
      simp only [Client.step.injEq] at ht
      obtain ⟨rfl, rfl⟩ := ht
      refine .locking es fs ps e f hH' hv' hee hf ?_
      have hl' := hl.quiet' (hW _) (hA.quiet hI (s' := .left) hk (by simp))
      obtain ⟨D, mx, k', K', K0, hw⟩ := hW' T.v
      rcases hr'.lock hcl hr he (hvs ▸ hw) with ⟨hb, ha⟩ | ⟨hb, ha⟩
      · simp only [hb, if_true] at hvs ⊢
        exact .lockR hl' (hvs ▸ ha) rfl
      · simp only [hb, Bool.false_eq_true, if_false] at hvs ⊢
        exact .readL hl' (hvs ▸ ha) rfl
    | readL hl hr' h =>
      rw [h] at ht
      simp only [Client.step.injEq] at ht
      obtain ⟨rfl, rfl⟩ := ht
      refine .locking es fs ps e f hH' hv' hee hf ?_
      have hr'' := hr'.quiet' (hW _) (hA.quiet hI (s' := .right) hk (by simp))
      obtain ⟨hb, x, ha⟩ := hl.readValue hcl hr he
      simp only [hb, Bool.false_eq_true, if_false] at hvs ⊢
      exact .readR x (hvs ▸ ha) hr'' rfl
    | readR x hl hr' h =>
      rw [h] at ht
      simp only [Client.step.injEq] at ht
      obtain ⟨rfl, rfl⟩ := ht
      have hl' := hl.quiet' (hW _) (hA.quiet hI (s' := .left) hk (by simp))
      obtain ⟨hb, y, ha⟩ := hr'.readValue hcl hr he
      simp only [hb, Bool.false_eq_true, if_false] at hvs ⊢ hA
      have ha' : At ((S (n + 1)).vec T.v) (T.cid .right) f (.read y) := hvs ▸ ha
      refine .judging es fs ps e f x y (n + 1) (hH.mono hI hv Cmp.keeps_goesOn (Nat.le_refl _)) hv' hee hf (Nat.le_refl _) ?_ ?_
        (.both hl' ha' rfl)
      · refine ⟨⟨_, by rw [hA.cmp', upd_same], ?_, ?_⟩, hl'.knows x rfl, ha'.knows y rfl⟩
        · rintro b ⟨⟩
        · rintro b ⟨⟩
      · rintro huv rfl
        have huv : T.u = T.v := huv
        obtain ⟨D, mx, k', K', K0, hw⟩ := hW' T.v
        have hl'' : At ((S (n + 1)).vec T.v) (T.cid .left) e (.read x) := huv ▸ hl'
        have h1 := hw.owner (hl''.owns hw) (ha'.owns hw)
        have h3 := hI.distinct k T .left k T .right hk hk (by simp) huv h1
        obtain ⟨r', h4, -⟩ := hl.call
        exact hI.called_pos h4 h3
  | judging es fs ps e f x y t hH hv' he hf ht' hp hd h => cases h <;> rename_i h <;> rw [h] at ht <;> cases ht
  | callL hp hq rl rr h => rw [h] at ht; cases ht
  | callR es hq hl hr rl rr h => rw [h] at ht; cases ht
  | finL hp hq rr hc h => rw [h] at ht; cases ht
  | finR es hq hl hr rl hc h => rw [h] at ht; cases ht
  | ret es fs ps b hH hv' h => rw [h] at ht; cases ht
  | fail es fs ps j hH hv' h => rw [h] at ht; cases ht

/-- The open call performs an action on its way to the end. -/
theorem Phase.finStep (hI : SysInv m (S n)) (hW : ∀ u, Fine ((S n).vec u)) {K : Ret α β → Client α β}
    (hA : Acts (S n) (S (n + 1)) k T s T)
    (hcl : ((S n).vec (T.vecOf s)).calls (T.cid s) = some r)
    (hr : r.status = .running (.step a again g))
    (hv : (S (n + 1)).vec = upd (S n).vec (T.vecOf s)
      (((S n).vec (T.vecOf s)).acted (T.cid s) r V w (if again b then .step a again g else g b)))
    (ht : T.prog = .fin s K) (hP : Phase S n k T) : Phase S (n + 1) k T := by
  have hvs : (S (n + 1)).vec (T.vecOf s) =
      ((S n).vec (T.vecOf s)).acted (T.cid s) r V w (if again b then .step a again g else g b) := by rw [hv, upd_same]
  clear hv
  have hv := hA.vecStep
  have hk := hA.keeps
  have hR : ∀ {s}, T.Rests (S n) s → T.Rests (S (n + 1)) s := fun h => h.mono hI hv hk rfl
  have hrun : ∀ {op}, ((S n).vec (T.vecOf s)).Running (T.cid s) op → ((S (n + 1)).vec (T.vecOf s)).Running (T.cid s) op := by
    rintro op ⟨r', p, h, ho, -⟩
    rw [hcl] at h
    cases h
    exact ⟨_, _, (congrFun (congrArg Cfg.calls hvs) _).trans (upd_same _ _ _), ho, rfl⟩
  cases hP with
  | finL hp hq rr hc h =>
    have h' := h
    rw [h] at ht
    simp only [Client.fin.injEq] at ht
    obtain ⟨rfl, rfl⟩ := ht
    exact .finL hp (hq.mono hI hv hk) (hR rr) (hrun hc) h'
  | finR es hq hl hr rl hc h =>
    have h' := h
    rw [h] at ht
    simp only [Client.fin.injEq] at ht
    obtain ⟨rfl, rfl⟩ := ht
    exact .finR es hq (hl.mono hI hv hk) (hr.mono hI hv hk) (hR rl) (hrun hc) h'
  | judging es fs ps e f x y t hH hv' he hf ht' hp hd h =>
    refine .judging es fs ps e f x y t (hH.mono hI hv hk (Nat.le_refl _)) hv' he hf (Nat.le_succ_of_le ht') hp hd ?_
    cases h with
    | both hl hr' h =>
      have h' := h
      rw [h] at ht
      simp only [Client.judge, Client.fin.injEq] at ht
      obtain ⟨rfl, rfl⟩ := ht
      have hl' := hl.quiet' (hW _) (hA.quiet hI (s' := .left) hA.cmp (by simp))
      obtain ⟨hb, ha⟩ := hr'.unlock (b := b) (V := V) (m := w) hcl hr
      simp only [hb, Bool.false_eq_true, if_false] at hvs
      exact .unlR hl' (hvs ▸ ha) h'
    | unlR hl hr' h =>
      rw [h] at ht
      simp only [Client.judge, Client.fin.injEq] at ht
      obtain ⟨rfl, rfl⟩ := ht
      cases (hr'.next hcl hr).1
    | left rr hf hl h =>
      have h' := h
      rw [h] at ht
      simp only [Client.fin.injEq] at ht
      obtain ⟨rfl, rfl⟩ := ht
      obtain ⟨hb, ha⟩ := hl.unlock (b := b) (V := V) (m := w) hcl hr
      simp only [hb, Bool.false_eq_true, if_false] at hvs
      exact .unlL (hR rr) (hf.mono hI hv hk) (hvs ▸ ha) h'
    | unlL rr hf hl h =>
      rw [h] at ht
      simp only [Client.fin.injEq] at ht
      obtain ⟨rfl, rfl⟩ := ht
      cases (hl.next hcl hr).1
  | locking es fs ps e f hH hv' he hf h => cases h <;> rename_i h <;> rw [h] at ht <;> cases ht
  | callL hp hq rl rr h => rw [h] at ht; cases ht
  | callR es hq hl hr rl rr h => rw [h] at ht; cases ht
  | ret es fs ps b hH hv' h => rw [h] at ht; cases ht
  | fail es fs ps j hH hv' h => rw [h] at ht; cases ht

/-- Configuration after the return of a call. -/
abbrev Cfg.returns (κ : Cfg α β) (c : Cid) (r : Rec α β) (x : Ret α β) : Cfg α β :=
  { κ with calls := upd κ.calls c (some { r with status := .done x }) }

/-- The open call returns. -/
theorem Phase.finRet (hI : SysInv m (S n)) (hW : ∀ u, Fine ((S n).vec u)) {K : Ret α β → Client α β} {z : Ret α β}
    (hA : Acts (S n) (S (n + 1)) k T s (T.goesOn (K z)))
    (hcl : ((S n).vec (T.vecOf s)).calls (T.cid s) = some r) (hr : r.status = .running (.ret z))
    (hv : (S (n + 1)).vec = upd (S n).vec (T.vecOf s) (((S n).vec (T.vecOf s)).returns (T.cid s) r z))
    (ht : T.prog = .fin s K) (hP : Phase S n k T) : Phase S (n + 1) k (T.goesOn (K z)) := by
  have hvs : (S (n + 1)).vec (T.vecOf s) = ((S n).vec (T.vecOf s)).returns (T.cid s) r z := by rw [hv, upd_same]
  clear hv
  have hv := hA.vecStep
  have hk := hA.keeps
  have hI' := hA.inv hI
  have hcr : ((S (n + 1)).vec (T.vecOf s)).calls (T.cid s) = some { r with status := .done z } :=
    (congrFun (congrArg Cfg.calls hvs) _).trans (upd_same _ _ _)
  have hmem : T.cid s ∈ T.own s := cid_mem (hI.called_pos hcl)
  have hR : ∀ {K s}, T.Rests (S n) s → (T.goesOn K).Rests (S (n + 1)) s := fun h => h.mono hI hv Cmp.keeps_goesOn rfl
  have hrest : ∀ {K}, (T.goesOn K).Rests (S (n + 1)) s := by
    intro K c hc
    by_cases hcc : c = T.cid s
    · subst hcc
      exact ⟨_, hcr, .inl ⟨z, rfl⟩⟩
    · exact hI.ends hv (hI.past _ _ _ hA.cmp c hc hcc)
  have hret : ∀ {op}, r.op = op → ((S (n + 1)).vec (T.vecOf s)).Returned (T.cid s) op z := fun ho => ⟨_, hcr, ho, rfl⟩
  have hrun : ((S n).vec (T.vecOf s)).Running (T.cid s) .iter → r.op = .iter := by
    rintro ⟨r', p, h, ho, -⟩
    rw [hcl] at h
    cases h
    exact ho
  have hknow : ∀ {K es}, z = .elems es → (T.goesOn K).Knows (S (n + 1)) s es := by
    rintro K es rfl i hi
    exact ⟨_, List.mem_append_right _ hmem, _, _, hcr, rfl, hi⟩
  cases hP with
  | finL hp hq rr hcall h =>
    rw [h] at ht
    simp only [Client.fin.injEq] at ht
    obtain ⟨rfl, rfl⟩ := ht
    have hret := hret (hrun hcall)
    obtain ⟨N, rfl⟩ := (hI'.reach _).iter_returned hret
    refine .afterL (es := List.range N) ?_ (hknow rfl) (hq.mono hI hv hk) hrest (hR rr) rfl
    simp only [Sys.Elements, Cmp.arg, Cmp.goesOn, hp]
    exact ⟨_, hmem, hret⟩
  | finR es hq hl hre rl hcall h =>
    rw [h] at ht
    simp only [Client.fin.injEq] at ht
    obtain ⟨rfl, rfl⟩ := ht
    have hret := hret (hrun hcall)
    obtain ⟨N, rfl⟩ := (hI'.reach _).iter_returned hret
    refine .first (es := es) (fs := List.range N) (hl.mono hI hv hk) ?_ (hre.mono hI hv hk) (hknow rfl) (hR rl) hrest rfl
    simp only [Sys.Elements, Cmp.arg, Cmp.goesOn, hq]
    exact ⟨_, hmem, hret⟩
  | judging es fs ps e f x y t hH hv' he hf ht' hp hd h =>
    have hH' := hH.mono hI hv hk (Nat.le_refl _)
    cases h with
    | both hl hr' h =>
      rw [h] at ht
      simp only [Client.judge, Client.fin.injEq] at ht
      obtain ⟨rfl, rfl⟩ := ht
      cases (hr'.next hcl hr).1
    | unlR hl hr' h =>
      rw [h] at ht
      simp only [Client.judge, Client.fin.injEq] at ht
      obtain ⟨rfl, rfl⟩ := ht
      have hl' := hl.quiet' (hW _) (hA.quiet hI (s' := .left) hA.cmp (by simp))
      obtain ⟨h1, h2⟩ := hr'.next hcl hr
      cases h1
      exact .judging es fs ps e f x y t hH' hv' he hf (Nat.le_succ_of_le ht') hp hd (.left hrest ⟨_, hmem, hret h2⟩ hl' rfl)
    | left rr hf hl h =>
      rw [h] at ht
      simp only [Client.fin.injEq] at ht
      obtain ⟨rfl, rfl⟩ := ht
      cases (hl.next hcl hr).1
    | unlL rr hfo hl h =>
      rw [h] at ht
      simp only [Client.fin.injEq] at ht
      obtain ⟨rfl, rfl⟩ := ht
      obtain ⟨h1, h2⟩ := hl.next hcl hr
      cases h1
      have hS := hH'.snoc he hf (hp.keeps hk) (Nat.le_succ_of_le ht') ⟨_, hmem, hret h2⟩ (hfo.mono hI hv hk) hd
      have hres : ∀ {K}, (T.goesOn K).results (ps ++ [(x, y)]) = List.replicate ps.length (some true) ++ [T.veq x y] := by
        intro K
        rw [← hv']
        simp only [Cmp.results, List.map_append, List.map_cons, List.map_nil]
        rfl
      rcases hxy : T.veq x y with _ | _ | _
      · refine .fail es fs _ ps.length hS (by rw [hres, hxy]) (by simp [Cmp.goesOn, Client.verdict, hxy]) hrest (hR rr)
      · refine .ret es fs _ false hS (by rw [hres, hxy]; exact .differ _) (by simp [Cmp.goesOn, Client.verdict, hxy]) hrest (hR rr)
      · refine Phase.enter (es := es) (fs := fs) (ps := ps ++ [(x, y)]) hS ?_ hrest (hR rr) ?_
        · show (T.goesOn _).results _ = _
          rw [hres, hxy, List.length_append, List.length_singleton, List.replicate_succ']
        · simp [Cmp.goesOn, Client.verdict, hxy]
  | locking es fs ps e f hH hv' he hf h => cases h <;> rename_i h <;> rw [h] at ht <;> cases ht
  | callL hp hq rl rr h => rw [h] at ht; cases ht
  | callR es hq hl hr rl rr h => rw [h] at ht; cases ht
  | ret es fs ps b hH hv' h => rw [h] at ht; cases ht
  | fail es fs ps j hH hv' h => rw [h] at ht; cases ht

/-- The open call does not panic. -/
theorem Phase.no_panic (hW : ∀ u, Fine ((S n).vec u)) {pk : PanicKind}
    (hcl : ((S n).vec (T.vecOf s)).calls (T.cid s) = some r) (hr : r.status = .running (.panic pk))
    (ht : (∃ K, T.prog = .step s K) ∨ ∃ K, T.prog = .fin s K) (hP : Phase S n k T) : False := by
  obtain ⟨D, mx, k', K', K0, hw⟩ := hW (T.vecOf s)
  have hmay := hw.no_panic hcl hr
  have hrun : ¬ ((S n).vec (T.vecOf s)).Running (T.cid s) .iter := by
    rintro ⟨r', p, h, ho, -⟩
    rw [hcl] at h
    cases h
    rw [ho] at hmay
    exact hmay
  have hat : ∀ {e st}, ¬ At ((S n).vec (T.vecOf s)) (T.cid s) e st := by
    intro e st h
    rw [(h.next hcl hr).2] at hmay
    exact hmay
  cases hP with
  | finL hp hq rr hc h =>
    rw [h] at ht
    rcases ht with ⟨K, ht⟩ | ⟨K, ht⟩ <;> cases ht
    exact hrun hc
  | finR es hq hl hr rl hc h =>
    rw [h] at ht
    rcases ht with ⟨K, ht⟩ | ⟨K, ht⟩ <;> cases ht
    exact hrun hc
  | judging es fs ps e f x y t hH hv' he hf ht' hp hd h =>
    cases h <;> rename_i h <;> rw [h] at ht <;> rcases ht with ⟨K, ht⟩ | ⟨K, ht⟩ <;> cases ht <;>
      exact hat ‹_›
  | locking es fs ps e f hH hv' he hf h =>
    cases h <;> rename_i h <;> rw [h] at ht <;> rcases ht with ⟨K, ht⟩ | ⟨K, ht⟩ <;> cases ht <;>
      exact hat ‹_›
  | callL hp hq rl rr h => rw [h] at ht; rcases ht with ⟨K, ht⟩ | ⟨K, ht⟩ <;> cases ht
  | callR es hq hl hr rl rr h => rw [h] at ht; rcases ht with ⟨K, ht⟩ | ⟨K, ht⟩ <;> cases ht
  | ret es fs ps b hH hv' h => rw [h] at ht; rcases ht with ⟨K, ht⟩ | ⟨K, ht⟩ <;> cases ht
  | fail es fs ps j hH hv' h => rw [h] at ht; rcases ht with ⟨K, ht⟩ | ⟨K, ht⟩ <;> cases ht

end open_

end phase

/-! ## All executions -/

/-- What a step does to the vectors and to the comparisons. -/
theorem SysStep.split {S S' : Sys α β} (hs : SysStep S S') (hI : SysInv m S) :
    VecStep S S' ∧ SysInv m S' := by
  have upd_step : ∀ {u κ'}, Step (S.vec u) κ' → S'.vec = upd S.vec u κ' → VecStep S S' := by
    intro u κ' hs hv u'
    rw [hv]
    by_cases hu : u' = u
    · subst hu; rw [upd_same]; exact .inr hs
    · rw [upd_other _ _ hu]; exact .inl rfl
  have main : ∀ {k T s T'}, Acts S S' k T s T' → VecStep S S' ∧ SysInv m S' := fun hA => ⟨hA.vecStep, hA.inv hI⟩
  cases hs with
  | vec u κ' hs ho =>
    have hv := upd_step hs rfl
    exact ⟨hv, hI.vec hv rfl⟩
  | start k u v p q veq H V V' hk hl hr hp hq =>
    refine ⟨fun u => .inl rfl, ?_⟩
    have hold : ∀ {k' T'}, upd S.cmp k (some ⟨⟨u, v, p, q, veq, .compare veq p q, fun _ => []⟩, H⟩) k' = some T' →
        (k' = k ∧ T' = ⟨⟨u, v, p, q, veq, .compare veq p q, fun _ => []⟩, H⟩) ∨ S.cmp k' = some T' := by
      intro k' T' hk'
      by_cases hkk : k' = k
      · subst hkk
        simp only [upd_same, Option.some.injEq] at hk'
        exact .inl ⟨rfl, hk'.symm⟩
      · rw [upd_other _ _ hkk] at hk'
        exact .inr hk'
    refine ⟨hI.reach, fun k' T s hk' => ?_, fun k1 T1 s1 k2 T2 s2 h1 h2 hne hvv hcc => ?_, fun k1 T1 s1 h1 c hc => ?_,
      fun k1 T1 s1 h1 c hc hne => ?_, fun k1 T1 s1 h1 cs c ds ho d hd => ?_⟩
    · rcases hold hk' with ⟨rfl, rfl⟩ | hk'
      · exact (hI.reach _).zero.2
      · exact hI.ids _ _ _ hk'
    · rcases hold h1 with ⟨rfl, rfl⟩ | h1'
      · rfl
      · rcases hold h2 with ⟨rfl, rfl⟩ | h2'
        · rw [hcc]; rfl
        · exact hI.distinct _ _ _ _ _ _ h1' h2' hne hvv hcc
    · rcases hold h1 with ⟨rfl, rfl⟩ | h1'
      · cases s1
        · exact ended_over hl c hc
        · exact ended_over hr c hc
      · exact hI.hb _ _ _ h1' c hc
    · rcases hold h1 with ⟨rfl, rfl⟩ | h1'
      · cases hc
      · exact hI.past _ _ _ h1' c hc hne
    · rcases hold h1 with ⟨rfl, rfl⟩ | h1'
      · cases cs <;> cases ho
      · exact hI.after _ _ _ h1' cs c ds ho d hd
  | call k T s op K κ H V hk ht hκ hH hb hn hp =>
    subst hκ
    exact main (Acts.call hI hk hH hb hn hp rfl rfl)
  | step k T s K κ r a again g t V w b hk ht hκ hcl hr he =>
    subst hκ
    exact main (Acts.open hI hk hcl (.act _ _ _ _ _ _ _ _ _ _ hcl hr he) rfl rfl rfl)
  | finStep k T s K κ r a again g t V w b hk ht hκ hcl hr he =>
    subst hκ
    have hv := upd_step (.act _ _ _ _ _ _ _ _ _ _ hcl hr he) rfl
    exact ⟨hv, hI.vec hv rfl⟩
  | finRet k T s K κ r z hk ht hκ hcl hr =>
    subst hκ
    exact main (Acts.open hI hk hcl (.ret _ _ _ _ hcl hr) rfl rfl rfl)
  | panic k T s κ r pk hk ht hκ hcl hr =>
    subst hκ
    exact main (Acts.open hI hk hcl (.panic _ _ _ _ hcl hr) rfl rfl rfl)
  | bad k T s κ r a again g t x hk ht hκ hcl hr he =>
    subst hκ
    have hv := upd_step (.bad _ _ _ _ _ _ _ _ hcl hr he) rfl
    exact ⟨hv, hI.vec hv rfl⟩

theorem SysExec.inv {S : Nat → Sys α β} {n : Nat} (h : SysExec m n S) : ∀ {t}, t ≤ n → SysInv m (S t) := by
  intro t
  induction t with
  | zero =>
    intro _
    rw [h.init]
    exact ⟨fun u => .init, fun k T s hk => (by cases hk), fun k T s _ _ _ hk => (by cases hk), fun k T s hk => (by cases hk),
      fun k T s hk => (by cases hk), fun k T s hk => (by cases hk)⟩
  | succ t ih =>
    intro ht
    exact ((h.next t (by omega)).split (ih (by omega))).2

theorem SysExec.disciplined {S : Nat → Sys α β} {n : Nat} (h : SysExec m n S) (hd : (S n).Disciplined) :
    ∀ {d t}, t + d = n → (S t).Disciplined := by
  intro d
  induction d with
  | zero => rintro t rfl; exact hd
  | succ d ih =>
    intro t ht u
    have h1 := ih (t := t + 1) (by omega) u
    have hI := h.inv (t := t) (by omega)
    rcases ((h.next t (by omega)).split hI).1 u with he | hs
    · rw [he] at h1; exact h1
    · exact hs.disciplined (hI.reach u).new h1

theorem SysExec.fine {S : Nat → Sys α β} {n : Nat} (h : SysExec m n S) (hm : ∀ u, InitMem (m u) (l u)) (hd : (S n).Disciplined)
    {t : Nat} (ht : t ≤ n) (u : Nat) : Fine ((S t).vec u) := by
  obtain ⟨K, K0, hw⟩ := winv_of (hm u) ((h.inv ht).reach u) (h.disciplined hd (d := n - t) (by omega) u)
  exact ⟨_, _, _, K, K0, hw⟩

theorem SysExec.phase {S : Nat → Sys α β} {n : Nat} (h : SysExec m n S) (hm : ∀ u, InitMem (m u) (l u)) (hd : (S n).Disciplined) :
    ∀ {t}, t ≤ n → ∀ k T, (S t).cmp k = some T → Phase S t k T := by
  intro t
  induction t with
  | zero =>
    intro _ k T hk
    rw [h.init] at hk
    cases hk
  | succ t ih =>
    intro ht
    have hO := ih (by omega)
    have hI := h.inv (t := t) (by omega)
    have hW : ∀ u, Fine ((S t).vec u) := fun u => h.fine hm hd (by omega) u
    have hW' : ∀ u, Fine ((S (t + 1)).vec u) := fun u => h.fine hm hd ht u
    have hstep := h.next t (by omega)
    have hvs := (hstep.split hI).1
    -- a comparison acts
    have main : ∀ {k T s T'}, Acts (S t) (S (t + 1)) k T s T' → (Phase S t k T → Phase S (t + 1) k T') →
        ∀ k T, (S (t + 1)).cmp k = some T → Phase S (t + 1) k T := by
      intro k T s T' hA hP k' T1 hk'
      rw [hA.cmp'] at hk'
      by_cases hkk : k' = k
      · subst hkk
        simp only [upd_same, Option.some.injEq] at hk'
        subst hk'
        exact hP (hO _ _ hA.cmp)
      · rw [upd_other _ _ hkk] at hk'
        exact Phase.quiet hI hW hA.vecStep (hA.quiet hI (s' := .left) hk' (fun hh => hkk hh.1))
          (hA.quiet hI (s' := .right) hk' (fun hh => hkk hh.1)) (hO _ _ hk')
    generalize hS : S (t + 1) = S' at hstep
    have hvc : ∀ {v c}, S' = ⟨v, c⟩ → (S (t + 1)).vec = v ∧ (S (t + 1)).cmp = c := by
      intro v c he; rw [hS, he]; exact ⟨rfl, rfl⟩
    rw [← hS]
    cases hstep with
    | vec u κ' hs ho =>
      obtain ⟨hv, hc⟩ := hvc rfl
      have hquiet : ∀ {k T s}, (S t).cmp k = some T →
          Quiet ((S t).vec (T.vecOf s)) ((S (t + 1)).vec (T.vecOf s)) (T.cid s) := by
        intro k T s hk
        refine ⟨hvs _, ?_⟩
        by_cases hu : T.vecOf s = u
        · rw [hv, hu, upd_same]; exact ho k T s hk hu
        · rw [hv, upd_other _ _ hu]
      intro k T hk
      rw [hc] at hk
      exact Phase.quiet hI hW hvs (hquiet (s := .left) hk) (hquiet (s := .right) hk) (hO _ _ hk)
    | start k u v p q veq H V V' hk hl hr hp hq =>
      obtain ⟨hv, hc⟩ := hvc rfl
      intro k' T hk'
      rw [hc] at hk'
      by_cases hkk : k' = k
      · subst hkk
        simp only [upd_same, Option.some.injEq] at hk'
        subst hk'
        refine .start (fun i hi => ?_) (fun i hi => ?_) (fun c hc => by cases hc) (fun c hc => by cases hc) rfl
        · rw [List.append_nil, hv]; exact hp i hi
        · rw [List.append_nil, hv]; exact hq i hi
      · rw [upd_other _ _ hkk] at hk'
        exact Phase.quiet hI hW hvs ⟨hvs _, by rw [hv]⟩ ⟨hvs _, by rw [hv]⟩ (hO _ _ hk')
    | call k T s op K κ H V hk ht hκ hH hb hn hp =>
      subst hκ
      obtain ⟨hv, hc⟩ := hvc rfl
      have hA := Acts.call hI hk hH hb hn hp hv hc
      exact main hA (Phase.call hI hW hA hv ht)
    | step k T s K κ r a again g t' V w b hk ht hκ hcl hr he =>
      subst hκ
      obtain ⟨hv, hc⟩ := hvc rfl
      have hA := Acts.open hI hk hcl (.act _ _ _ _ _ _ _ _ _ _ hcl hr he) rfl hv hc
      exact main hA (Phase.step hI hW hW' hA hcl hr he hv ht)
    | finStep k T s K κ r a again g t' V w b hk ht hκ hcl hr he =>
      subst hκ
      obtain ⟨hv, hc⟩ := hvc rfl
      have hc' : (S (t + 1)).cmp = upd (S t).cmp k (some (T.goesOn (.fin s K))) := by
        rw [hc, Cmp.goesOn_eta ht]
        funext k'
        simp only [upd_apply]
        split
        · rename_i h; rw [h, hk]
        · rfl
      have hA := Acts.open hI hk hcl (.act _ _ _ _ _ _ _ _ _ _ hcl hr he) rfl hv hc'
      rw [Cmp.goesOn_eta ht] at hA
      exact main hA (Phase.finStep hI hW hA hcl hr hv ht)
    | finRet k T s K κ r z hk ht hκ hcl hr =>
      subst hκ
      obtain ⟨hv, hc⟩ := hvc rfl
      have hA := Acts.open hI hk hcl (.ret _ _ _ _ hcl hr) rfl hv hc
      exact main hA (Phase.finRet hI hW hA hcl hr hv ht)
    | panic k T s κ r pk hk ht hκ hcl hr =>
      subst hκ
      exact ((hO _ _ hk).no_panic hW hcl hr ht).elim
    | bad k T s κ r a again g t' x hk ht hκ hcl hr he =>
      subst hκ
      obtain ⟨hv, hc⟩ := hvc rfl
      obtain ⟨D, mx, k', K', K0, hw⟩ := hW' (T.vecOf s)
      have := hw.bad
      rw [hv, upd_same] at this
      cases this

end Verif.Weak
