import Verif.Proof.CompareLists
import Verif.Proof.Uses

/-!
# Who waits for whom when vectors are compared, for C56
-/

namespace Verif

variable {α β : Type} {m : Nat → Mem α} {l : Nat → List α} {S : Nat → Sys α β} {n k : Nat} {T : Cmp α β}

/-! ## Open calls -/

namespace Client

/-- The program goes on with the open call of side `s`. -/
def Opens (s : Side) : Client α β → Prop
  | .ret _ => False
  | .panic _ => False
  | .call s' _ K => s' ≠ s ∧ Opens s K
  | .step s' K => s' = s ∨ Opens s K
  | .fin s' K => s' = s ∨ ∀ x, Opens s (K x)

/-- Calls that are made are also finished. -/
def WF : Client α β → Prop
  | .ret _ => True
  | .panic _ => True
  | .call s _ K => K.Opens s ∧ K.WF
  | .step s K => K.Opens s ∧ K.WF
  | .fin _ K => ∀ x, (K x).WF

theorem wf_verdict {veq : α → α → Option Bool} {K : Client α β} (h : K.WF) (x y : Ret α β) : (verdict veq K x y).WF := by
  unfold verdict
  split
  · split
    · exact h
    · trivial
    · trivial
  · trivial

theorem wf_loop (veq : α → α → Option Bool) : ∀ es fs : List Nat, (loop veq es fs : Client α β).WF
  | [], [] => trivial
  | [], _ :: _ => trivial
  | _ :: _, [] => trivial
  | e :: es, f :: fs => by
    simp only [loop, eqElem, WF, Opens]
    refine ⟨by simp, by simp, by simp, by simp, by simp, by simp, fun y x => wf_verdict (wf_loop veq es fs) _ _⟩

theorem wf_onElems {K : List Nat → Client α β} (h : ∀ es, (K es).WF) (x : Ret α β) : (onElems K x).WF := by
  unfold onElems
  split
  · exact h _
  · trivial

theorem wf_iter {s : Side} {p : Arg} {K : List Nat → Client α β} (h : ∀ es, (K es).WF) : (iter s p K).WF := by
  cases p with
  | vec => exact ⟨.inl rfl, fun x => wf_onElems h x⟩
  | slc t => exact h _
  | el e => exact h _

theorem wf_compare (veq : α → α → Option Bool) (p q : Arg) : (compare veq p q : Client α β).WF :=
  wf_iter fun _ => wf_iter fun _ => wf_loop _ _ _

end Client

/-- Only calls with which the comparison goes on are running. -/
structure Tidy (S : Sys α β) (T : Cmp α β) : Prop where
  wf : T.prog.WF
  closed : ∀ s, T.prog.Opens s ∨ ∀ op, ¬ (S.vec (T.vecOf s)).Running (T.cid s) op

theorem Tidy.quiet {S S' : Sys α β} (h : Tidy S T) (hq : ∀ s, (S'.vec (T.vecOf s)).calls (T.cid s) =
    (S.vec (T.vecOf s)).calls (T.cid s)) : Tidy S' T :=
  ⟨h.wf, fun s => (h.closed s).imp id fun hc op ⟨ct, st, p, hr⟩ => hc op ⟨ct, st, p, by rw [← hq s]; exact hr⟩⟩

theorem SysExec.tidy (h : SysExec m l n S) (hm : ∀ u, InitMem (m u) (l u)) : ∀ {t}, t ≤ n → ∀ {k T}, (S t).cmp k = some T →
    Tidy (S t) T := by
  intro t
  induction t with
  | zero => intro _ k T hk; rw [h.init] at hk; cases hk
  | succ t ih =>
    intro ht k1 T1 hk1
    have hO := h.ok hm (t := t) (by omega)
    have hI := hO.toSysInv
    have ih := fun {k T} => ih (by omega) (k := k) (T := T)
    have hI' : ∀ u, CfgInv (.ofList (l u)) ((S t).vec u) := fun u => (hI.reach u).inv (hm u)
    have hstep := h.next t (by omega)
    have main : ∀ {k T s T'}, Acts (S t) (S (t + 1)) k T s T' → (Tidy (S t) T → T'.prog.WF) →
        (Tidy (S t) T → T'.prog.Opens s ∨ ∀ op, ¬ ((S (t + 1)).vec (T'.vecOf s)).Running (T'.cid s) op) →
        (∀ s', s' ≠ s → T.prog.Opens s' → T'.prog.Opens s') → Tidy (S (t + 1)) T1 := by
      intro k T s T' hA h1 h2 h3
      have hk' := hk1
      rw [hA.cmp'] at hk'
      by_cases hkk : k1 = k
      · subst hkk
        simp only [upd_same, Option.some.injEq] at hk'
        subst hk'
        have hT := ih hA.cmp
        refine ⟨h1 hT, fun s' => ?_⟩
        by_cases hs : s' = s
        · subst hs; exact h2 hT
        · refine (hT.closed s').imp (h3 s' hs) fun hc op hr => hc op ?_
          obtain ⟨ct, st, p, hr⟩ := hr
          rw [hA.keeps.vecOf, hA.other _ hs, (hA.quiet hI hA.cmp (s' := s') (fun hh => hs hh.2)).same] at hr
          exact ⟨ct, st, p, hr⟩
      · rw [upd_other _ _ hkk] at hk'
        exact (ih hk').quiet fun s' => (hA.quiet hI hk' (s' := s') (fun hh => hkk hh.1)).same
    generalize hS : S (t + 1) = S' at hstep
    have hvc : ∀ {v c}, S' = ⟨v, c⟩ → (S (t + 1)).vec = v ∧ (S (t + 1)).cmp = c := by
      intro v c he; rw [hS, he]; exact ⟨rfl, rfl⟩
    rw [← hS]
    cases hstep with
    | vec u κ' hs ho =>
      obtain ⟨hv, hc⟩ := hvc rfl
      rw [hc] at hk1
      refine (ih hk1).quiet fun s => ?_
      rw [hv]
      by_cases hu : T1.vecOf s = u
      · subst hu; rw [upd_same]; exact ho k1 T1 s hk1 rfl
      · rw [upd_other _ _ hu]
    | start k u v p q veq hk hp hq =>
      obtain ⟨hv, hc⟩ := hvc rfl
      rw [hc] at hk1
      by_cases hkk : k1 = k
      · subst hkk
        simp only [upd_same, Option.some.injEq] at hk1
        subst hk1
        refine ⟨Client.wf_compare _ _ _, fun s => .inr fun op ⟨ct, st, p, hr⟩ => ?_⟩
        rw [hv] at hr
        exact Nat.lt_irrefl _ ((hI' _).next _ _ hr).1
      · rw [upd_other _ _ hkk] at hk1
        exact (ih hk1).quiet fun s => by rw [hv]
    | call k T s op K κ hk ht hκ hn hp =>
      subst hκ
      obtain ⟨hv, hc⟩ := hvc rfl
      refine main (Acts.call hI hm hk hn hp hv hc) (fun hT => ?_) (fun hT => .inl ?_) fun s' hs' ho => ?_
      · have := hT.wf; rw [ht] at this; exact this.2
      · have := hT.wf; rw [ht] at this; exact this.1
      · rw [ht] at ho; exact ho.2
    | step k T s K κ r a again g w' b hk ht hκ hcl hr he =>
      subst hκ
      obtain ⟨hv, hc⟩ := hvc rfl
      refine main (Acts.open hI hm hk hcl (.act _ _ _ _ _ _ _ _ hcl hr he) rfl hv hc) (fun hT => ?_) (fun hT => .inl ?_)
        fun s' hs' ho => ?_
      · have := hT.wf
        rw [ht] at this
        show Client.WF (if _ then _ else _)
        split
        · exact this
        · exact this.2
      · have := hT.wf
        rw [ht] at this
        show Client.Opens s (if _ then _ else _)
        split
        · exact .inl rfl
        · exact this.1
      · rw [ht] at ho
        show Client.Opens s' (if _ then _ else _)
        split
        · exact ho
        · exact ho.resolve_left (Ne.symm hs')
    | finStep k T s K κ r a again g w' b hk ht hκ hcl hr he =>
      subst hκ
      obtain ⟨hv, hc⟩ := hvc rfl
      have hc' : (S (t + 1)).cmp = upd (S t).cmp k (some { T with prog := .fin s K }) := by
        rw [hc, ← Cmp.eta ht]
        funext k'
        simp only [upd_apply]
        split
        · rename_i h; rw [h, hk]
        · rfl
      refine main (Acts.open hI hm hk hcl (.act _ _ _ _ _ _ _ _ hcl hr he) rfl hv hc') (fun hT => ?_) (fun hT => .inl (.inl rfl))
        fun s' hs' ho => ?_
      · have := hT.wf; rw [ht] at this; exact this
      · rw [ht] at ho; exact ho
    | finRet k T s K κ r z hk ht hκ hcl hr =>
      subst hκ
      obtain ⟨hv, hc⟩ := hvc rfl
      refine main (Acts.open hI hm hk hcl (.ret _ _ _ _ hcl hr) rfl hv hc) (fun hT => ?_) (fun hT => .inr ?_) fun s' hs' ho => ?_
      · have := hT.wf; rw [ht] at this; exact this z
      · rintro op ⟨ct, st, p, hrun⟩
        rw [hv] at hrun
        change (upd (S t).vec (T.vecOf s) _ (T.vecOf s)).calls (T.cid s) = _ at hrun
        rw [upd_same] at hrun
        have h2 := setStatus_self.symm.trans hrun
        cases h2
      · rw [ht] at ho; exact ho.resolve_left (Ne.symm hs') z
    | panic k T s κ r pk hk ht hκ hcl hr =>
      subst hκ
      exact ((hO.phase _ _ hk).no_panic hI hm hcl hr ht).elim
    | ub k T s κ r a again g hk ht hκ hcl hr he =>
      subst hκ
      have := (Reach.step (hI.reach _) (.ub _ _ _ _ _ _ hcl hr he)).inv (hm _)
      exact absurd this.noUB (by simp)

/-! ## Somebody can get ahead -/

/-- Which element is where. -/
theorem Sys.Elements.pos {s : Side} {es : List Nat} (hm : ∀ u, InitMem (m u) (l u)) (hI : SysInv m l (S n))
    (he : (S n).Elements T s es) {j e : Nat} (hj : es[j]? = some e) : e = (T.arg s).pos j := by
  unfold Sys.Elements at he
  cases ha : T.arg s with
  | vec =>
    simp only [ha] at he
    obtain ⟨c, hc, ct, st, et, fin, hcall⟩ := he
    obtain ⟨d, hi⟩ := ((hI.reach _).inv (hm _)).returned hcall
    obtain ⟨n', hlen, hes, -⟩ := hi.out
    cases hes
    obtain ⟨h1, h2⟩ := List.getElem?_eq_some_iff.1 hj
    simp only [List.getElem_range] at h2
    exact h2.symm
  | slc t =>
    simp only [ha] at he
    subst he
    obtain ⟨h1, h2⟩ := List.getElem?_eq_some_iff.1 hj
    simp only [Slc.view, List.getElem_map, List.getElem_range] at h2
    exact h2.symm
  | el e' =>
    simp only [ha] at he
    subst he
    cases j with
    | zero => simp at hj; exact hj.symm
    | succ j => simp at hj

theorem Arg.pos_lt {p q : Arg} (h : p.pos 0 < q.pos 0) {es fs : List Nat} {S : Nat → Sys α β} {T : Cmp α β}
    (hm : ∀ u, InitMem (m u) (l u)) (hI : SysInv m l (S n)) (hp : T.p = p) (hq : T.q = q)
    (h1 : (S n).Elements T .left es) (h2 : (S n).Elements T .right fs) {j e f : Nat} (he : es[j]? = some e)
    (hf : fs[j]? = some f) : e < f := by
  have e1 := h1.pos hm hI he
  have e2 := h2.pos hm hI hf
  simp only [Cmp.arg, hp, hq] at e1 e2
  subst e1 e2
  have z1 : ∀ {a : Arg} {es s}, T.arg s = a → (S n).Elements T s es → ∀ {e}, es[j]? = some e → (∃ x, a = .el x) → j = 0 := by
    rintro _ es s ha hE e he ⟨x, rfl⟩
    simp only [Sys.Elements, ha] at hE
    subst hE
    cases j with
    | zero => rfl
    | succ j => simp at he
  have h4 := z1 (s := .right) hq h2 hf
  cases p <;> cases q <;> simp only [Arg.pos] at h ⊢ <;> first
    | omega
    | (have := h4 ⟨_, rfl⟩; omega)

theorem At.blocked {κ : Cfg α β} {l : List α} {c : Cid} {e : Nat} {s : Stage α} (h : At κ c e s) (hI : CfgInv (.ofList l) κ)
    (hb : κ.Blocked c) : s = .wait ∧ (κ.w.holder e).isSome ∧ ∀ j, κ.w.holder j ≠ some c := by
  obtain ⟨r, a, again, g, b, hc, hr, he, hag, hok⟩ := hI.blocked_iff.1 hb
  obtain ⟨h1, h2⟩ := h.next hc hr
  cases s with
  | wait =>
    simp only [Stage.prog, elCloned_prog, Prog.step.injEq] at h1
    obtain ⟨rfl, -⟩ := h1
    simp only [BlockOK] at hok
    refine ⟨rfl, (hI.inv.lock e).1 hok.1, fun j hj => ?_⟩
    have := hok.2.2 j hj
    rw [h2] at this
    exact this
  | held =>
    simp only [Stage.prog, Prog.step.injEq] at h1
    obtain ⟨rfl, -⟩ := h1
    exact hok.elim
  | read x =>
    simp only [Stage.prog, Prog.step.injEq] at h1
    obtain ⟨rfl, -⟩ := h1
    exact hok.elim
  | free x => cases h1

theorem Reach.holder_uses {m : Mem α} {l : List α} {κ : Cfg α β} (h : Reach m l κ) (hm : InitMem m l) {i : Nat} {c : Cid}
    {op : Op α β} (hh : κ.w.holder i = some c) (hc : κ.Called c op) : op.Uses i := by
  obtain ⟨N, κs, hex, rfl⟩ := h.exec
  obtain ⟨t, ht, ⟨o, f, hn⟩, -⟩ := hex.hasLocked hm (Nat.le_refl N) hh
  obtain ⟨op', ct, st, again, g, hcall⟩ := hn
  have h1 := (hex.reach (Nat.le_of_lt ht)).locksIn hcall rfl
  have h2 := (hex.called_mono hm (Nat.le_of_lt ht) (Nat.le_refl _) ⟨ct, st, _, hcall⟩).unique hc
  subst h2
  exact h1.1 _ _ _ _ _ rfl

/-- A waiting comparison: which handle it waits for and which it holds. -/
inductive WaitsAt (S : Nat → Sys α β) (n k : Nat) (T : Cmp α β) : Prop where
  | left (e : Nat) (h : At ((S n).vec T.u) (T.cid .left) e .wait) (hh : (((S n).vec T.u).w.holder e).isSome)
      (hl : ∀ j, ((S n).vec T.u).w.holder j ≠ some (T.cid .left)) (ho : ¬ T.prog.Opens .right)
  | right (e f j : Nat) (es fs : List Nat) (hl : At ((S n).vec T.u) (T.cid .left) e .held)
      (hr : At ((S n).vec T.v) (T.cid .right) f .wait) (hh : (((S n).vec T.v).w.holder f).isSome)
      (hn : ∀ j, ((S n).vec T.v).w.holder j ≠ some (T.cid .right))
      (hes : (S n).Elements T .left es) (hfs : (S n).Elements T .right fs) (he : es[j]? = some e) (hf : fs[j]? = some f)

theorem SysOK.waitsAt (h : SysOK m l S n) (hm : ∀ u, InitMem (m u) (l u)) (hk : (S n).cmp k = some T) (hw : (S n).Waits k) :
    WaitsAt S n k T := by
  obtain ⟨T', s, K, hk', ht, hb⟩ := hw
  rw [hk] at hk'
  cases hk'
  have hI : ∀ u, CfgInv (.ofList (l u)) ((S n).vec u) := fun u => (h.reach u).inv (hm u)
  cases h.phase k T hk with
  | locking es fs j e f hH hee hf h =>
    cases h with
    | callL h => rw [h] at ht; cases ht
    | callR hl h => rw [h] at ht; cases ht
    | lockL hl h =>
      have h' := h
      rw [h] at ht
      simp only [Client.step.injEq] at ht
      obtain ⟨rfl, rfl⟩ := ht
      obtain ⟨-, h1, h2⟩ := hl.blocked (hI _) hb
      refine .left e hl h1 h2 ?_
      rw [h']
      simp [Client.Opens]
    | lockR hl hr' h =>
      rw [h] at ht
      simp only [Client.step.injEq] at ht
      obtain ⟨rfl, rfl⟩ := ht
      obtain ⟨-, h1, h2⟩ := hr'.blocked (hI _) hb
      exact .right e f j es fs hl hr' h1 h2 hH.left hH.right hee hf
    | readL hl hr' h =>
      rw [h] at ht
      simp only [Client.step.injEq] at ht
      obtain ⟨rfl, rfl⟩ := ht
      cases (hl.blocked (hI _) hb).1
    | readR x hl hr' h =>
      rw [h] at ht
      simp only [Client.step.injEq] at ht
      obtain ⟨rfl, rfl⟩ := ht
      cases (hr'.blocked (hI _) hb).1
  | judging es fs j e f x y hH h => cases h <;> rename_i h <;> rw [h] at ht <;> cases ht
  | callL hp hq h => rw [h] at ht; cases ht
  | callR es hq hl hr h => rw [h] at ht; cases ht
  | finL hp hq ho hc h => rw [h] at ht; cases ht
  | finR es hq hl hr ho hc h => rw [h] at ht; cases ht
  | ret es fs rs b hH hv' h => rw [h] at ht; cases ht
  | fail es fs j hH h => rw [h] at ht; cases ht

/-- A running call of a comparison: the comparison is not over. -/
theorem Tidy.comparing {S : Sys α β} (h : Tidy S T) (hk : S.cmp k = some T) {s : Side} {op : Op α β}
    (hr : (S.vec (T.vecOf s)).Running (T.cid s) op) : S.Comparing k := by
  have ho := (h.closed s).resolve_right fun hc => hc _ hr
  refine ⟨T, hk, fun b hb => ?_, fun e he => ?_⟩
  · rw [hb] at ho; exact ho
  · rw [he] at ho; exact ho

/-- Somebody can get ahead. -/
def Sys.Moving (S : Sys α β) : Prop :=
  (∃ k, S.Comparing k ∧ ¬ S.Waits k) ∨ ∃ u c op, (S.vec u).Running c op ∧ S.Foreign u c ∧ ¬ (S.vec u).Blocked c

theorem SysExec.rank_bound (h : SysExec m l n S) (rank : Nat → Nat) : ∀ {t}, t ≤ n →
    ∃ R, ∀ k T, (S t).cmp k = some T → rank T.v ≤ R := by
  intro t
  induction t with
  | zero => intro _; exact ⟨0, fun k T hk => by rw [h.init] at hk; cases hk⟩
  | succ t ih =>
    intro ht
    obtain ⟨R, hR⟩ := ih (by omega)
    have key : ∀ {c : Nat → Option (Cmp α β)} {k : Nat} {T' : Cmp α β} {R' : Nat}, R ≤ R' → rank T'.v ≤ R' →
        c = upd (S t).cmp k (some T') → ∀ k1 T1, c k1 = some T1 → rank T1.v ≤ R' := by
      intro c k T' R' h1 h2 hc k1 T1 hk1
      rw [hc] at hk1
      by_cases hkk : k1 = k
      · subst hkk
        simp only [upd_same, Option.some.injEq] at hk1
        subst hk1; exact h2
      · rw [upd_other _ _ hkk] at hk1
        exact Nat.le_trans (hR _ _ hk1) h1
    have hs := h.next t (by omega)
    generalize S (t + 1) = S' at hs
    cases hs with
    | vec => exact ⟨R, hR⟩
    | start k u v p q veq hk hp hq => exact ⟨max R (rank v), key (Nat.le_max_left _ _) (Nat.le_max_right _ _) rfl⟩
    | call k T s op K κ hk => exact ⟨R, key (Nat.le_refl _) (by exact hR k T hk) rfl⟩
    | step k T s K κ r a again g w' b hk => exact ⟨R, key (Nat.le_refl _) (by exact hR k T hk) rfl⟩
    | finStep => exact ⟨R, hR⟩
    | finRet k T s K κ r z hk => exact ⟨R, key (Nat.le_refl _) (by exact hR k T hk) rfl⟩
    | panic k T s κ r pk hk => exact ⟨R, key (Nat.le_refl _) (by exact hR k T hk) rfl⟩
    | ub => exact ⟨R, hR⟩

section moving

variable (h : SysExec m l n S) (hm : ∀ u, InitMem (m u) (l u)) (hsw : ∀ u c op, ((S n).vec u).Called c op → op.SwapsUp)
  (rank : Nat → Nat) (hup : ∀ k T, (S n).cmp k = some T → (S n).Comparing k → T.Upwards rank)

include h hm hsw hup

/-- The handle of an element is taken: somebody can get ahead, or a handle behind it is taken. -/
theorem SysExec.chain {u i : Nat} (hh : (((S n).vec u).w.holder i).isSome) :
    (S n).Moving ∨ (∃ i', i < i' ∧ (((S n).vec u).w.holder i').isSome) ∨
      ∃ k T i', (S n).cmp k = some T ∧ rank u < rank T.v ∧ (((S n).vec T.v).w.holder i').isSome := by
  have hO := h.ok hm (Nat.le_refl n)
  have hI : ∀ u, CfgInv (.ofList (l u)) ((S n).vec u) := fun u => (hO.reach u).inv (hm u)
  obtain ⟨d, hd⟩ := Option.isSome_iff_exists.1 hh
  obtain ⟨r, p, hc, hr⟩ := (hI u).holder hd
  have hrun := Cfg.running_of hc hr
  by_cases hf : (S n).Foreign u d
  · by_cases hb : ((S n).vec u).Blocked d
    · obtain ⟨r', a, again, g, b, hc', hr', he, hag, hok⟩ := (hI u).blocked_iff.1 hb
      obtain ⟨op, ct, st, sta⟩ := r'
      cases a <;> simp only [BlockOK] at hok
      · exact (hok.1 i hd).elim
      · rename_i i' s1 s2 o1 o2
        exact .inr (.inl ⟨i', (hsw u d op ⟨ct, st, sta, hc'⟩).ordered.nested (hok.2.2 i hd), ((hI u).inv.lock i').1 hok.1⟩)
    · exact .inl (.inr ⟨u, d, _, hrun, hf, hb⟩)
  · simp only [Sys.Foreign, not_forall, Classical.not_not] at hf
    obtain ⟨k, T, s, hk, rfl, rfl⟩ := hf
    have hT := h.tidy hm (Nat.le_refl n) hk
    have hcmp := hT.comparing hk hrun
    by_cases hw : (S n).Waits k
    · cases hO.waitsAt hm hk hw with
      | left e hat hh hl ho =>
        cases s with
        | left => exact (hl _ hd).elim
        | right => exact ((hT.closed .right).resolve_left ho _ hrun).elim
      | right e f j es fs hl hr hh' hn hes hfs he hf =>
        cases s with
        | right => exact (hn _ hd).elim
        | left =>
          rcases hup k T hk hcmp with hlt | ⟨huv, hlt⟩
          · exact .inr (.inr ⟨k, T, f, hk, hlt, hh'⟩)
          · have hef := Arg.pos_lt hlt hm hO.toSysInv rfl rfl hes hfs he hf
            refine .inr (.inl ⟨f, ?_, ?_⟩)
            · obtain ⟨⟨ct, st, hcl⟩, -⟩ := hl
              have hei : i = e := (hO.reach T.u).holder_uses (hm _) (op := .elCloned e) hd ⟨ct, st, _, hcl⟩
              subst hei
              exact hef
            · show (((S n).vec T.u).w.holder f).isSome
              rw [huv]; exact hh'
    · exact .inl (.inl ⟨k, hcmp, hw⟩)

/-- The handle of an element is taken: somebody can get ahead. -/
theorem SysExec.moving_of_holder {R : Nat} (hR : ∀ k T, (S n).cmp k = some T → rank T.v ≤ R) : ∀ (M N u i : Nat),
    R ≤ M + rank u → ((S n).vec u).w.spec.len ≤ N + i → (((S n).vec u).w.holder i).isSome → (S n).Moving := by
  have hI : ∀ u, CfgInv (.ofList (l u)) ((S n).vec u) := fun u => ((h.ok hm (Nat.le_refl n)).reach u).inv (hm u)
  intro M
  induction M using Nat.strongRecOn with
  | _ M ihM =>
    intro N
    induction N using Nat.strongRecOn with
    | _ N ihN =>
      intro u i hM hN hh
      have hlen : ∀ {u i}, (((S n).vec u).w.holder i).isSome → i < ((S n).vec u).w.spec.len := fun {u i} hh =>
        (hI u).inv.pub_len i ((hI u).inv.pub_of_holder hh)
      rcases h.chain hm hsw rank hup hh with hg | ⟨i', hlt, hh'⟩ | ⟨k, T, i', hk, hlt, hh'⟩
      · exact hg
      · have h1 := hlen hh'
        exact ihN (((S n).vec u).w.spec.len - i') (by omega) u i' hM (by omega) hh'
      · have h1 := hR k T hk
        exact ihM (R - rank T.v) (by omega) (((S n).vec T.v).w.spec.len) T.v i' (by omega) (by omega) hh'

/-- If anybody is busy, somebody can get ahead. -/
theorem SysExec.moving (hp : ∀ u, ((S n).vec u).GrowthIntact)
    (hb : (∃ k, (S n).Comparing k) ∨ ∃ u c op, ((S n).vec u).Running c op) : (S n).Moving := by
  have hO := h.ok hm (Nat.le_refl n)
  have hI : ∀ u, CfgInv (.ofList (l u)) ((S n).vec u) := fun u => (hO.reach u).inv (hm u)
  obtain ⟨R, hR⟩ := h.rank_bound rank (Nat.le_refl n)
  have hold : ∀ {u i}, (((S n).vec u).w.holder i).isSome → (S n).Moving := fun {u i} hh =>
    h.moving_of_holder hm hsw rank hup hR R ((S n).vec u).w.spec.len u i (by omega) (by omega) hh
  have hcmp : ∀ {k}, (S n).Comparing k → (S n).Moving := by
    intro k hk
    by_cases hw : (S n).Waits k
    · obtain ⟨T, hT, -⟩ := hk
      cases hO.waitsAt hm hT hw with
      | left e hat hh hl ho => exact hold hh
      | right e f j es fs hl hr hh hn hes hfs he hf => exact hold hh
    · exact .inl ⟨k, hk, hw⟩
  rcases hb with ⟨k, hk⟩ | ⟨u, c, op, hr⟩
  · exact hcmp hk
  · by_cases hf : (S n).Foreign u c
    · by_cases hbl : ((S n).vec u).Blocked c
      · obtain ⟨r, a, again, g, b, hc, hr', he, hag, hok⟩ := (hI u).blocked_iff.1 hbl
        cases a <;> simp only [BlockOK] at hok
        · obtain ⟨d, op', n', h1, h2, h3⟩ := (hI u).cap_progress (hp u) (o := .acquire) (nested := fun _ _ => True) hc hok
          by_cases hf' : (S n).Foreign u d
          · exact .inr ⟨u, d, op', h1, hf', h3⟩
          · simp only [Sys.Foreign, not_forall, Classical.not_not] at hf'
            obtain ⟨k, T, s, hk, rfl, rfl⟩ := hf'
            exact hcmp ((h.tidy hm (Nat.le_refl n) hk).comparing hk h1)
        · exact hold (((hI u).inv.lock _).1 hok.1)
      · exact .inr ⟨u, c, op, hr, hf, hbl⟩
    · simp only [Sys.Foreign, not_forall, Classical.not_not] at hf
      obtain ⟨k, T, s, hk, rfl, rfl⟩ := hf
      exact hcmp ((h.tidy hm (Nat.le_refl n) hk).comparing hk hr)

end moving

end Verif
