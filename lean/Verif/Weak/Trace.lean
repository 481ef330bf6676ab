import Verif.Weak.Sound
import Verif.Weak.DataTyped
import Verif.Proof.Trace

/-!
# The sequential order of the element accesses of a weak-memory execution

Helper file (no property statements).
-/

namespace Verif.Weak

variable {α β : Type} {D : Mode} {mx : Nat}

/-! ## what an action does to the values -/

/-- Effect of an action on the values and on `len_reserved`. -/
def Effect (m m' : WMem α) : (a : Act α) → a.Resp → Prop
  | .resFetchAdd n _, (b : Nat) => m'.val = m.val ∧ b = lastVal m.res ∧ lastVal m'.res = b + n
  | .valRead i, (v : α) => m.val i = some v ∧ m'.val = m.val ∧ lastVal m'.res = lastVal m.res
  | .valWrite i v, _ => m'.val = upd m.val i (some v) ∧ lastVal m'.res = lastVal m.res
  | .valSwap i j, _ => i ≠ j ∧ (m.val i).isSome ∧ (m.val j).isSome ∧ m'.val = upd (upd m.val i (m.val j)) j (m.val i) ∧
      lastVal m'.res = lastVal m.res
  | _, _ => m'.val = m.val ∧ lastVal m'.res = lastVal m.res

theorem exec_effect {a : Act α} {t : Nat} {V V' : View} {m m' : WMem α} {b : a.Resp} (h : exec a t V m = .ok V' m' b) :
    Effect m m' a b := by
  cases a with
  | resFetchAdd n o =>
    simp only [exec] at h
    split at h
    · next r hp hr =>
      cases h
      have hl := getLast_of_place (place_last hp).2 hr
      refine ⟨rfl, ?_, by rw [lastVal_append]⟩
      show r.val = lastVal m.res
      unfold lastVal; rw [hl]
    · cases h
    · cases h
  | resLoad o =>
    simp only [exec] at h
    split at h
    · split at h
      · cases h; exact ⟨rfl, rfl⟩
      · cases h
    · cases h
  | writtenLoad o =>
    simp only [exec] at h
    split at h
    · split at h
      · cases h; exact ⟨rfl, rfl⟩
      · cases h
    · cases h
  | writtenFetchMax n o =>
    simp only [exec] at h
    split at h
    · cases h; exact ⟨rfl, rfl⟩
    · cases h
    · cases h
  | capLoad o =>
    simp only [exec] at h
    split at h
    · split at h
      · cases h; exact ⟨rfl, rfl⟩
      · cases h
    · cases h
  | maxCapLoad => simp only [exec] at h; cases h; exact ⟨rfl, rfl⟩
  | growAlloc n =>
    simp only [exec] at h
    split at h
    · cases h; exact ⟨rfl, rfl⟩
    · cases h
  | growPublish o =>
    simp only [exec] at h
    split at h
    · split at h
      · cases h; exact ⟨rfl, rfl⟩
      · cases h
      · cases h
    · cases h
  | stLoad i o =>
    simp only [exec] at h
    split at h
    · split at h
      · split at h
        · cases h; exact ⟨rfl, rfl⟩
        · cases h
      · cases h
    · cases h
  | stCas i e n ok fail =>
    simp only [exec] at h
    split at h
    · split at h
      · split at h
        · split at h
          · cases h; exact ⟨rfl, rfl⟩
          · cases h
          · cases h
        · split at h
          · cases h; exact ⟨rfl, rfl⟩
          · cases h
      · cases h
    · cases h
  | stStore i s o =>
    simp only [exec] at h
    split at h
    · split at h
      · cases h; exact ⟨rfl, rfl⟩
      · cases h
      · cases h
    · cases h
  | valRead i =>
    simp only [exec] at h
    split at h
    · split at h
      · split at h
        · next v hv => cases h; exact ⟨hv, rfl, rfl⟩
        · cases h
      · cases h
    · cases h
  | valWrite i v =>
    simp only [exec] at h
    split at h
    · split at h
      · cases h; exact ⟨rfl, rfl⟩
      · cases h
    · cases h
  | valSwap i j =>
    simp only [exec] at h
    split at h
    · split at h
      · cases h
      · next hij =>
        split at h
        · split at h
          · next v u hv hu =>
            cases h
            exact ⟨hij, by simp [hv], by simp [hu], by simp [hv, hu], rfl⟩
          · cases h
        · cases h
    · cases h

/-! ## legal traces -/

theorem specNext_above {σ : SpecSt α} {e : Ev α} (hok : specOk σ e) (h : ∀ i, σ.len ≤ i → σ.val i = none) :
    ∀ i, (specNext σ e).len ≤ i → (specNext σ e).val i = none := by
  intro i hi
  have hlt : ∀ j, (σ.val j).isSome → j < σ.len := by
    intro j hj
    rcases Nat.lt_or_ge j σ.len with h' | h'
    · exact h'
    · rw [h j h'] at hj; cases hj
  have hi' := Nat.le_trans (specNext_len σ e) hi
  refine specNext_none hok (h i hi') fun c v he => ?_
  subst he
  simp only [specOk] at hok
  omega

theorem legal_above {l : List α} {t : List (Ev α)} (h : Legal (.ofList l) t) :
    ∀ i, (specAt (.ofList l) t).len ≤ i → (specAt (.ofList l) t).val i = none := by
  induction t using List.reverseRecOn with
  | nil => intro i hi; exact List.getElem?_eq_none hi
  | append_singleton t e ih =>
    rw [specAt_snoc]
    exact specNext_above (h t e [] rfl) (ih h.prefix)

theorem legal_snoc {σ₀ : SpecSt α} {t : List (Ev α)} {e : Ev α} (h : Legal σ₀ t) (hok : specOk (specAt σ₀ t) e) :
    Legal σ₀ (t ++ [e]) := by
  intro t1 e' t2 he
  rcases List.eq_nil_or_concat t2 with rfl | ⟨t2', y, rfl⟩
  · obtain ⟨h1, h2⟩ := List.append_inj' he rfl
    simp only [List.cons.injEq, and_true] at h2
    subst h1 h2
    exact hok
  · rw [List.concat_eq_append, ← List.cons_append, ← List.append_assoc] at he
    exact h t1 e' t2' (List.append_inj' he rfl).1

theorem legal_replay {σ₀ : SpecSt α} {t : List (Ev α)} (h : Legal σ₀ t) : Replay σ₀ t (specAt σ₀ t) := by
  induction t using List.reverseRecOn with
  | nil => exact .nil
  | append_singleton t e ih =>
    rw [specAt_snoc]
    exact .snoc (ih h.prefix) (h t e [] rfl)

/-! ## the invariant -/

/-- Status of a call against the accesses it has performed. -/
def Fit (c : Cid) (r : Rec α β) (lo : Nat) (S : DS α) : Prop :=
  match r.status with
  | .running p => Does c (fun d e => e.cid = c ∧ r.op.Allows d e) (fun S x => r.op.Explains c lo S.d x)
      (fun S _ => r.op.ExplainsPanic c S.d) p S
  | .done x => r.op.Explains c lo S.d x
  | .panicked _ => r.op.ExplainsPanic c S.d

/-- Local part: what a call has done, against its knowledge and the memory. -/
structure LInv (σ : SpecSt α) (m : WMem α) (c : Cid) (K : Know) (S : DS α) : Prop where
  own : ∀ i, K.R i → i < σ.len ∧ σ.owner i = c
  held : ∀ i, S.held i ≠ none ↔ K.L i
  hval : ∀ i v, S.held i = some (some v) → m.val i = some v
  v : ∀ i, S.V.v i → K.V i
  a : ∀ i, S.V.a i → K.A i
  wn : S.V.wn ≤ K.wn
  fresh : ∀ i, K.U i → m.val i ≠ none → ∃ v, Ev.publish c i v ∈ S.d

structure TInv (l : List α) (κ : Cfg α β) (K K0 : Cid → Know) (S : Cid → DS α) (t : List (Ev α)) : Prop where
  legal : Legal (.ofList l) t
  val : (specAt (.ofList l) t).val = κ.mem.val
  len : (specAt (.ofList l) t).len = lastVal κ.mem.res
  data : ∀ e ∈ t, e.isData = true
  d : ∀ c, dataOf c t = (S c).d
  new : ∀ c, κ.next ≤ c → (S c).d = []
  loc : ∀ c, LInv (specAt (.ofList l) t) κ.mem c (K c) (S c)
  fit : ∀ c r, κ.calls c = some r → Fit c r (K0 c).wn (S c)
  allow : ∀ u e w, t = u ++ e :: w → ∃ r, κ.calls e.cid = some r ∧ r.op.Allows (dataOf e.cid u) e
  hb : ∀ d r, κ.calls d = some r → ∃ t1 t2, t = t1 ++ t2 ∧ dataOf d t1 = [] ∧ ∀ c, κ.HB c d → dataOf c t2 = []

variable {l : List α} {n : Nat} {κ κ' : Cfg α β} {K K0 : Cid → Know} {S : Cid → DS α} {t : List (Ev α)}

/-! ## one action -/

/-- What the next action of a call does to the trace. -/
structure Adds (σ : SpecSt α) (m m' : WMem α) (c : Cid) (K1 : Know) (S S1 : DS α) (evs : List (Ev α)) : Prop where
  one : evs = [] ∨ ∃ e, evs = [e] ∧ specOk σ e ∧ e.isData = true
  val : (specAt σ evs).val = m'.val
  len : (specAt σ evs).len = lastVal m'.res
  d : S1.d = S.d ++ evs
  loc : LInv (specAt σ evs) m' c K1 S1
  others : ∀ c' K' (S' : DS α), c' ≠ c → LInv σ m c' K' S' → (∀ i, K'.L i → ¬ K1.L i ∧ (m.val i).isSome) →
    (∀ i, K'.U i → K'.R i) → (∀ i v, S'.held i = some (some v) → m'.val i = some v) ∧
    (∀ i, K'.U i → m.val i = none → m'.val i = none)

theorem LInv.same {σ : SpecSt α} {m m' : WMem α} {c : Cid} {K K1 : Know} {S S1 : DS α} (h : LInv σ m c K S)
    (hv : m'.val = m.val) (hR : K1.R = K.R) (hL : K1.L = K.L) (hU : ∀ i, K1.U i → K.U i) (hd : S1.d = S.d)
    (hh : S1.held = S.held) (h1 : ∀ i, S1.V.v i → K1.V i) (h2 : ∀ i, S1.V.a i → K1.A i) (h3 : S1.V.wn ≤ K1.wn) :
    LInv σ m' c K1 S1 where
  own i hi := h.own i (by rw [← hR]; exact hi)
  held i := by rw [hh, hL]; exact h.held i
  hval i v hi := by rw [hv]; rw [hh] at hi; exact h.hval i v hi
  v := h1
  a := h2
  wn := h3
  fresh i hi hn := by rw [hd]; rw [hv] at hn; exact h.fresh i (hU i hi) hn

/-- Nothing is added. -/
theorem Adds.nothing {σ : SpecSt α} {m m' : WMem α} {c : Cid} {K1 : Know} {S S1 : DS α} (hσ : σ.val = m.val)
    (hl : σ.len = lastVal m.res) (hv : m'.val = m.val) (hr : lastVal m'.res = lastVal m.res) (hd : S1.d = S.d)
    (h : LInv σ m' c K1 S1) : Adds σ m m' c K1 S S1 [] where
  one := .inl rfl
  val := by rw [hv]; exact hσ
  len := by rw [hr]; exact hl
  d := by rw [hd, List.append_nil]
  loc := h
  others c' K' S' _ hL _ _ := ⟨fun i v hi => by rw [hv]; exact hL.hval i v hi, fun i _ hn => by rw [hv]; exact hn⟩

theorem adds_act {σ : SpecSt α} {m m' : WMem α} {c : Cid} {K : Know} {S : DS α} {V : View} (hσ : σ.val = m.val)
    (hl : σ.len = lastVal m.res) (hab : ∀ i, σ.len ≤ i → σ.val i = none) (hk : KInv D m V K) (h : LInv σ m c K S) {a : Act α} {b : a.Resp}
    (hp : Pre D mx K a) (hc : Can D mx K a b) (hdp : DPre S a) (he : Effect m m' a b) :
    DCan S a b ∧ ∃ g, Adds σ m m' c (Weak.next K a b) S (dnext c S g a b) (devs c S g a b) := by
  have hle := next_le K a b
  cases a with
  | resFetchAdd n o =>
    obtain ⟨hv, hb, hr⟩ := he
    refine ⟨trivial, none, ?_⟩
    exact
      { one := .inr ⟨_, rfl, by rw [specOk, hl]; exact hb, rfl⟩
        val := by simp only [devs, specAt, List.foldl_cons, List.foldl_nil, specNext]; rw [hv]; exact hσ
        len := by simp only [devs, specAt, List.foldl_cons, List.foldl_nil, specNext]; rw [hr, hl, hb]
        d := rfl
        loc :=
          { own := fun i hi => by
              simp only [devs, specAt, List.foldl_cons, List.foldl_nil, specNext]
              have hb' : (show Nat from b) = σ.len := by rw [hl]; exact hb
              rcases hi with hi | hi
              · obtain ⟨h1, h2⟩ := h.own i hi
                refine ⟨Nat.lt_of_lt_of_le h1 (Nat.le_add_right _ _), ?_⟩
                rw [if_neg]
                · exact h2
                · rintro ⟨h3, -⟩
                  have h3 : (show Nat from b) ≤ i := h3
                  omega
              · refine ⟨?_, if_pos hi⟩
                have h3 : i < (show Nat from b) + n := hi.2
                rw [hb'] at h3
                exact h3
            held := h.held
            hval := fun i v hi => by rw [hv]; exact h.hval i v hi
            v := h.v
            a := h.a
            wn := h.wn
            fresh := fun i hi hn => by
              rw [hv] at hn
              rcases hi with hi | hi
              · obtain ⟨v, hm⟩ := h.fresh i hi hn
                exact ⟨v, List.mem_append_left _ hm⟩
              · refine absurd ?_ hn
                rw [← hσ]
                refine hab i ?_
                rw [hl, ← hb]
                exact hi.1 }
        others := fun c' K' S' _ hL _ _ =>
          ⟨fun i v hi => by rw [hv]; exact hL.hval i v hi, fun i _ hn => by rw [hv]; exact hn⟩ }
  | resLoad o =>
    exact ⟨trivial, none, .nothing hσ hl he.1 he.2 (List.append_nil _)
      (h.same he.1 rfl rfl (fun _ h => h) (List.append_nil _) rfl h.v h.a h.wn)⟩
  | writtenLoad o =>
    refine ⟨Nat.le_trans h.wn hc, none, .nothing hσ hl he.1 he.2 (List.append_nil _)
      (h.same he.1 rfl rfl (fun _ h => h) (List.append_nil _) rfl (fun i hi => ?_) (fun i hi => .inl (h.a i hi)) ?_)⟩
    · rcases hi with hi | hi
      · exact .inl (h.v i hi)
      · exact .inr hi
    · have := h.wn
      show max S.V.wn (show Nat from b) ≤ max K.wn (show Nat from b)
      omega
  | writtenFetchMax n o =>
    exact ⟨trivial, none, .nothing hσ hl he.1 he.2 (List.append_nil _)
      (h.same he.1 rfl rfl (fun _ h => h) (List.append_nil _) rfl h.v h.a (Nat.le_trans h.wn hle.wn))⟩
  | capLoad o =>
    exact ⟨fun i hi => hc i (h.a i hi), none, .nothing hσ hl he.1 he.2 (List.append_nil _)
      (h.same he.1 rfl rfl (fun _ h => h) (List.append_nil _) rfl h.v (fun i hi => .inl (h.a i hi)) h.wn)⟩
  | maxCapLoad =>
    exact ⟨trivial, none, .nothing hσ hl he.1 he.2 (List.append_nil _)
      (h.same he.1 rfl rfl (fun _ h => h) (List.append_nil _) rfl h.v h.a h.wn)⟩
  | growAlloc n =>
    exact ⟨trivial, none, .nothing hσ hl he.1 he.2 (List.append_nil _)
      (h.same he.1 rfl rfl (fun _ h => h) (List.append_nil _) rfl h.v h.a h.wn)⟩
  | growPublish o =>
    exact ⟨trivial, none, .nothing hσ hl he.1 he.2 (List.append_nil _)
      (h.same he.1 rfl rfl (fun _ h => h) (List.append_nil _) rfl h.v (fun i hi => .inl (h.a i hi)) h.wn)⟩
  | stLoad i o =>
    refine ⟨trivial, none, .nothing hσ hl he.1 he.2 (List.append_nil _)
      (h.same he.1 rfl rfl (fun _ h => h) (List.append_nil _) rfl (fun j hj => ?_) h.a h.wn)⟩
    rcases hj with hj | hj
    · exact .inl (h.v j hj)
    · exact .inr hj
  | stCas i e n ok fail =>
    change Option CState at b
    rcases b with _ | s
    · refine ⟨?_, none, .nothing hσ hl he.1 he.2 (List.append_nil _) ?_⟩
      · show S.held i = none
        by_cases hn : S.held i = none
        · exact hn
        · exact absurd ((h.held i).1 hn) hc.1
      · exact
          { own := h.own
            held := fun j => by
              show upd S.held i (some none) j ≠ none ↔ (K.L j ∨ j = i)
              rw [upd_apply]
              split
              · next hj => simp [hj]
              · next hj => simp only [hj, or_false]; exact h.held j
            hval := fun j v hj => by
              have hj : upd S.held i (some none) j = some (some v) := hj
              rw [upd_apply] at hj
              split at hj
              · simp at hj
              · rw [he.1]; exact h.hval j v hj
            v := fun j hj => by
              rcases hj with hj | hj
              · exact .inl (h.v j hj)
              · exact .inr hj
            a := h.a
            wn := h.wn
            fresh := fun j hj hn => by
              rw [he.1] at hn
              obtain ⟨v, hm⟩ := h.fresh j hj hn
              exact ⟨v, List.mem_append_left _ hm⟩ }
    · exact ⟨⟨hc.1, fun hv => hc.2 (h.v i hv)⟩, none, .nothing hσ hl he.1 he.2 (List.append_nil _)
        (h.same he.1 rfl rfl (fun _ h => h) (List.append_nil _) rfl (fun j hj => .inl (h.v j hj)) h.a h.wn)⟩
  | stStore i s o =>
    refine ⟨trivial, none, .nothing hσ hl he.1 he.2 (List.append_nil _) ?_⟩
    exact
      { own := h.own
        held := fun j => by
          show upd S.held i none j ≠ none ↔ (K.L j ∧ j ≠ i)
          rw [upd_apply]
          split
          · next hj => simp [hj]
          · next hj =>
            simp only [ne_eq, hj, not_false_eq_true, and_true]
            exact h.held j
        hval := fun j v hj => by
          have hj : upd S.held i none j = some (some v) := hj
          rw [upd_apply] at hj
          split at hj
          · cases hj
          · rw [he.1]; exact h.hval j v hj
        v := fun j hj => .inl (h.v j hj)
        a := h.a
        wn := h.wn
        fresh := fun j hj hn => by
          rw [he.1] at hn
          obtain ⟨v, hm⟩ := h.fresh j hj.1 hn
          exact ⟨v, List.mem_append_left _ hm⟩ }
  | valRead i =>
    obtain ⟨h1, h2, h3⟩ := he
    refine ⟨fun u hu => ?_, none, ?_⟩
    · have := h.hval i u hu
      rw [h1] at this
      exact Option.some.inj this
    · exact
        { one := .inr ⟨_, rfl, by rw [specOk, hσ]; exact h1, rfl⟩
          val := by rw [h2]; exact hσ
          len := by rw [h3]; exact hl
          d := rfl
          loc :=
            { own := h.own
              held := fun j => by
                show dheld S (.valRead i) b j ≠ none ↔ K.L j
                rcases hh : S.held i with _ | o
                · simp only [dheld, hh]
                  exact h.held j
                · simp only [dheld, hh]
                  rw [upd_apply]
                  split
                  · next hj =>
                    subst hj
                    simp only [ne_eq, reduceCtorEq, not_false_eq_true, true_iff]
                    exact (h.held j).1 (by rw [hh]; simp)
                  · exact h.held j
              hval := fun j v hj => by
                have hj : dheld S (.valRead i) b j = some (some v) := hj
                rw [h2]
                rcases hh : S.held i with _ | o
                · simp only [dheld, hh] at hj
                  exact h.hval j v hj
                · simp only [dheld, hh] at hj
                  rw [upd_apply] at hj
                  split at hj
                  · next hij =>
                    simp only [Option.some.injEq] at hj
                    rw [hij, h1]
                    exact congrArg some hj
                  · exact h.hval j v hj
              v := h.v
              a := h.a
              wn := h.wn
              fresh := fun j hj hn => by
                rw [h2] at hn
                obtain ⟨v, hm⟩ := h.fresh j hj hn
                exact ⟨v, List.mem_append_left _ hm⟩ }
          others := fun c' K' S' _ hL _ _ =>
            ⟨fun i v hi => by rw [h2]; exact hL.hval i v hi, fun i _ hn => by rw [h2]; exact hn⟩ }
  | valWrite i v =>
    obtain ⟨h1, h2⟩ := he
    refine ⟨trivial, m.val i, ?_⟩
    rcases hh : S.held i with _ | o
    · have hL : ¬ K.L i := fun hL => (h.held i).2 hL hh
      have hU : K.U i := by
        rcases hp.2 with hx | hx
        · exact absurd hx.1 hL
        · exact hx.1
      have hnone : m.val i = none := by
        by_cases hn : m.val i = none
        · exact hn
        · obtain ⟨v', hm⟩ := h.fresh i hU hn
          exact absurd hm (hdp hh _ _)
      have hev : devs c S (m.val i) (.valWrite i v) b = [.publish c i v] := by simp only [devs, hh]
      have hd1 : dnext c S (m.val i) (.valWrite i v) b = ⟨S.d ++ [.publish c i v], S.held, S.V⟩ := by
        simp only [dnext, hev, dheld, hh, dV]
      rw [hev, hd1]
      obtain ⟨ho1, ho2⟩ := h.own i (hk.u_r i hU)
      exact
        { one := .inr ⟨_, rfl, ⟨ho1, ho2, by rw [hσ]; exact hnone⟩, rfl⟩
          val := by simp only [specAt, List.foldl_cons, List.foldl_nil, specNext]; rw [h1, hσ]
          len := by simp only [specAt, List.foldl_cons, List.foldl_nil, specNext]; rw [h2, hl]
          d := rfl
          loc :=
            { own := h.own
              held := h.held
              hval := fun j u hj => by
                have hj : S.held j = some (some u) := hj
                rw [h1, upd_apply, if_neg]
                · exact h.hval j u hj
                · rintro rfl
                  rw [hh] at hj; cases hj
              v := h.v
              a := h.a
              wn := h.wn
              fresh := fun j hj hn => by
                rw [h1, upd_apply] at hn
                split at hn
                · next hij => subst hij; exact ⟨v, by simp⟩
                · obtain ⟨u, hm⟩ := h.fresh j hj hn
                  exact ⟨u, List.mem_append_left _ hm⟩ }
          others := fun c' K' S' hne hL' hlk hur => by
            refine ⟨fun j u hj => ?_, fun j hj hn => ?_⟩
            · rw [h1, upd_apply, if_neg]
              · exact hL'.hval j u hj
              · rintro rfl
                have := (hlk j ((hL'.held j).1 (by rw [hj]; simp))).2
                rw [hnone] at this; cases this
            · rw [h1, upd_apply, if_neg]
              · exact hn
              · rintro rfl
                have := (hL'.own j (hur j hj)).2
                rw [ho2] at this
                exact hne this.symm }
    · have hL : K.L i := (h.held i).1 (by rw [hh]; simp)
      have hsome := hk.l_val i hL
      obtain ⟨old, hold⟩ := Option.isSome_iff_exists.1 hsome
      have hev : devs c S (m.val i) (.valWrite i v) b = [.write c i old v] := by
        simp only [devs, hh]
        rcases o with _ | u
        · simp [hold]
        · have := h.hval i u hh
          rw [hold] at this
          simp only [Option.some.injEq] at this
          simp [this]
      have hd1 : dnext c S (m.val i) (.valWrite i v) b =
          ⟨S.d ++ [.write c i old v], upd S.held i (some (some v)), S.V⟩ := by
        simp only [dnext, hev, dheld, hh, dV]
      rw [hev, hd1]
      exact
        { one := .inr ⟨_, rfl, by rw [specOk, hσ]; exact hold, rfl⟩
          val := by simp only [specAt, List.foldl_cons, List.foldl_nil, specNext]; rw [h1, hσ]
          len := by simp only [specAt, List.foldl_cons, List.foldl_nil, specNext]; rw [h2, hl]
          d := rfl
          loc :=
            { own := h.own
              held := fun j => by
                show upd S.held i (some (some v)) j ≠ none ↔ K.L j
                rw [upd_apply]
                split
                · next hij => subst hij; simpa using hL
                · exact h.held j
              hval := fun j u hj => by
                have hj : upd S.held i (some (some v)) j = some (some u) := hj
                rw [h1, upd_apply]
                rw [upd_apply] at hj
                split at hj
                · next hij => rw [if_pos hij]; simpa using hj
                · next hij => rw [if_neg hij]; exact h.hval j u hj
              v := h.v
              a := h.a
              wn := h.wn
              fresh := fun j hj hn => by
                have hn' : m.val j ≠ none := by
                  rw [h1, upd_apply] at hn
                  split at hn
                  · next hij => rw [hij, hold]; simp
                  · exact hn
                obtain ⟨u, hm⟩ := h.fresh j hj hn'
                exact ⟨u, List.mem_append_left _ hm⟩ }
          others := fun c' K' S' hne hL' hlk hur => by
            refine ⟨fun j u hj => ?_, fun j hj hn => ?_⟩
            · rw [h1, upd_apply, if_neg]
              · exact hL'.hval j u hj
              · rintro rfl
                exact (hlk j ((hL'.held j).1 (by rw [hj]; simp))).1 hL
            · rw [h1, upd_apply, if_neg]
              · exact hn
              · rintro rfl
                rw [hold] at hn; cases hn }
  | valSwap i j =>
    obtain ⟨hij, hi, hj, h1, h2⟩ := he
    have hLi : K.L i := hp.2.2.1
    have hLj : K.L j := hp.2.2.2.1
    refine ⟨trivial, none, ?_⟩
    exact
      { one := .inr ⟨_, rfl, by simp only [specOk, hσ]; exact ⟨hij, hi, hj⟩, rfl⟩
        val := by simp only [devs, specAt, List.foldl_cons, List.foldl_nil, specNext]; rw [h1, hσ]
        len := by simp only [devs, specAt, List.foldl_cons, List.foldl_nil, specNext]; rw [h2, hl]
        d := rfl
        loc :=
          { own := h.own
            held := fun x => by
              show upd (upd S.held i (some none)) j (some none) x ≠ none ↔ K.L x
              rw [upd_apply, upd_apply]
              split
              · next hx => subst hx; simpa using hLj
              · split
                · next hx => subst hx; simpa using hLi
                · exact h.held x
            hval := fun x u hx => by
              have hx : upd (upd S.held i (some none)) j (some none) x = some (some u) := hx
              rw [h1]
              rw [upd_apply, upd_apply] at hx ⊢
              split at hx
              · simp at hx
              · next hxj =>
                split at hx
                · simp at hx
                · next hxi => rw [if_neg hxj, if_neg hxi]; exact h.hval x u hx
            v := h.v
            a := h.a
            wn := h.wn
            fresh := fun x hx hn => by
              have hn' : m.val x ≠ none := by
                rw [h1, upd_apply, upd_apply] at hn
                intro hne
                split at hn
                · next he => rw [he] at hne; rw [hne] at hj; cases hj
                · split at hn
                  · next he => rw [he] at hne; rw [hne] at hi; cases hi
                  · exact hn hne
              obtain ⟨u, hm⟩ := h.fresh x hx hn'
              exact ⟨u, List.mem_append_left _ hm⟩ }
        others := fun c' K' S' hne hL' hlk hur => by
          refine ⟨fun x u hx => ?_, fun x hx hn => ?_⟩
          · have hnl := (hlk x ((hL'.held x).1 (by rw [hx]; simp))).1
            rw [h1, upd_apply, upd_apply, if_neg, if_neg]
            · exact hL'.hval x u hx
            · rintro rfl; exact hnl hLi
            · rintro rfl; exact hnl hLj
          · rw [h1, upd_apply, upd_apply, if_neg, if_neg]
            · exact hn
            · rintro rfl; rw [hn] at hi; cases hi
            · rintro rfl; rw [hn] at hj; cases hj }

theorem dataOf_nil (c : Cid) : dataOf c ([] : List (Ev α)) = [] := rfl

theorem HB.old {f : Cid → Option (Rec α β)} (hf : ∀ d r, f d = some r → ∃ r', κ.calls d = some r' ∧ r'.hb = r.hb) {c d : Cid} {m : WMem α}
    (h : ({ κ with mem := m, calls := f } : Cfg α β).HB c d) : κ.HB c d := by
  induction h with
  | one h hc =>
    obtain ⟨r', h1, h2⟩ := hf _ _ h
    exact .one h1 (by rw [h2]; exact hc)
  | trans _ _ ih1 ih2 => exact .trans ih1 ih2

theorem TInv.update (h : WInv D mx n κ K K0) (T : TInv l κ K K0 S t) {c : Cid} {r : Rec α β} (hc : κ.calls c = some r)
    {V : View} {m : WMem α} {s : Status α β} {K1 : Know} {S1 : DS α} {evs : List (Ev α)}
    (hrun : ∃ p, r.status = .running p) (hg : GInv D m (upd K c K1))
    (hA : Adds (specAt (.ofList l) t) κ.mem m c K1 (S c) S1 evs)
    (hal : ∀ e ∈ evs, e.cid = c ∧ r.op.Allows (S c).d e)
    (hf : Fit c { r with view := V, status := s } (K0 c).wn S1) :
    TInv l { κ with mem := m, calls := upd κ.calls c (some { r with view := V, status := s }) } (upd K c K1) K0 (upd S c S1)
      (t ++ evs) := by
  have hcn : ∀ d, κ.next ≤ d → d ≠ c := by
    intro d hd he; rw [he] at hd; rw [(h.new c hd).1] at hc; cases hc
  have hover : ∀ d r', κ.calls d = some r' → r'.Over → d ≠ c := by
    intro d r' hr' ho he
    subst he
    rw [hc] at hr'; injection hr' with hr'; subst hr'
    obtain ⟨p, hp⟩ := hrun
    rcases ho with ⟨x, hx⟩ | ⟨k, hx⟩ <;> rw [hp] at hx <;> cases hx
  have hnone : ∀ d, d ≠ c → dataOf d evs = [] := by
    intro d hd
    unfold dataOf
    rw [List.filter_eq_nil_iff]
    intro e he
    have := (hal e he).1
    simp only [Bool.and_eq_true, beq_iff_eq, not_and]
    intro _ h2
    exact hd (h2.symm.trans this)
  have hmine : dataOf c evs = evs := by
    unfold dataOf
    rw [List.filter_eq_self]
    intro e he
    rcases hA.one with h0 | ⟨e', h0, -, h1⟩
    · rw [h0] at he; cases he
    · rw [h0, List.mem_singleton] at he
      subst he
      simp [h1, (hal e (by rw [h0]; simp)).1]
  have hd1 : ∀ d, dataOf d (t ++ evs) = (upd S c S1 d).d := by
    intro d
    rw [dataOf_append, T.d, upd_apply]
    split
    · next hd => rw [hd, hmine, hA.d]
    · next hd => rw [hnone d hd, List.append_nil]
  have hleg : Legal (.ofList l) (t ++ evs) := by
    rcases hA.one with h0 | ⟨e, h0, h1, -⟩
    · rw [h0, List.append_nil]; exact T.legal
    · rw [h0]; exact legal_snoc T.legal h1
  have hcalls : ∀ d r', upd κ.calls c (some { r with view := V, status := s }) d = some r' →
      ∃ r'', κ.calls d = some r'' ∧ r''.hb = r'.hb := by
    intro d r' hr'
    rw [upd_apply] at hr'
    split at hr'
    · next hd => rw [hd]; injection hr' with hr'; exact ⟨r, hc, by rw [← hr']⟩
    · exact ⟨r', hr', rfl⟩
  have hop : ∀ d r', κ.calls d = some r' → ∃ r'', upd κ.calls c (some { r with view := V, status := s }) d = some r'' ∧ r''.op = r'.op := by
    intro d r' hr'
    rw [upd_apply]
    split
    · next hd => subst hd; rw [hc] at hr'; injection hr' with hr'; exact ⟨_, rfl, by rw [← hr']⟩
    · exact ⟨r', hr', rfl⟩
  refine
    { legal := hleg
      val := by rw [specAt_append]; exact hA.val
      len := by rw [specAt_append]; exact hA.len
      data := ?_
      d := hd1
      new := fun d hd => by rw [upd_apply, if_neg (hcn d hd)]; exact T.new d hd
      loc := ?_
      fit := ?_
      allow := ?_
      hb := ?_ }
  · intro e he
    rcases List.mem_append.1 he with he | he
    · exact T.data e he
    · rcases hA.one with h0 | ⟨e', h0, -, h1⟩
      · rw [h0] at he; cases he
      · rw [h0, List.mem_singleton] at he; rw [he]; exact h1
  · intro d
    rw [specAt_append]
    by_cases hd : d = c
    · subst hd; rw [upd_same, upd_same]; exact hA.loc
    · rw [upd_apply, if_neg hd, upd_apply, if_neg hd]
      have hL := T.loc d
      have hlk : ∀ i, (K d).L i → ¬ K1.L i ∧ (κ.mem.val i).isSome := by
        intro i hi
        refine ⟨fun h1 => hd ?_, (h.k d).l_val i hi⟩
        refine hg.disjL d c i ?_ ?_
        · rw [upd_apply, if_neg hd]; exact hi
        · rw [upd_same]; exact h1
      obtain ⟨o1, o2⟩ := hA.others d (K d) (S d) hd hL hlk (h.k d).u_r
      exact
        { own := fun i hi => by
            obtain ⟨h1, h2⟩ := hL.own i hi
            refine ⟨Nat.lt_of_lt_of_le h1 (specAt_len _ _), ?_⟩
            rw [specAt_owner (Legal.suffix hleg) h1]; exact h2
          held := hL.held
          hval := o1
          v := hL.v
          a := hL.a
          wn := hL.wn
          fresh := fun i hi hn => by
            by_cases h0 : κ.mem.val i = none
            · exact absurd (o2 i hi h0) hn
            · exact hL.fresh i hi h0 }
  · intro d r' hr'
    change upd κ.calls c (some { r with view := V, status := s }) d = some r' at hr'
    rw [upd_apply] at hr' ⊢
    split at hr'
    · next hd =>
      rw [if_pos hd]
      injection hr' with hr'
      subst hd hr'
      exact hf
    · next hd => rw [if_neg hd]; exact T.fit d r' hr'
  · intro u e w he
    have hin : ∀ w', t = u ++ e :: w' →
        ∃ r', upd κ.calls c (some { r with view := V, status := s }) e.cid = some r' ∧ r'.op.Allows (dataOf e.cid u) e := by
      intro w' ht
      obtain ⟨r', h1, h2⟩ := T.allow u e w' ht
      obtain ⟨r'', h3, h4⟩ := hop _ _ h1
      exact ⟨r'', h3, by rw [h4]; exact h2⟩
    rcases hA.one with h0 | ⟨e', h0, -⟩
    · rw [h0, List.append_nil] at he; exact hin w he
    · rw [h0] at he
      rcases List.eq_nil_or_concat w with rfl | ⟨w', y, rfl⟩
      · obtain ⟨h1, h2⟩ := List.append_inj' he rfl
        simp only [List.cons.injEq, and_true] at h2
        subst h1 h2
        obtain ⟨h3, h4⟩ := hal e' (by rw [h0]; simp)
        exact ⟨_, by rw [h3]; exact upd_same _ _ _, by rw [h3, T.d]; exact h4⟩
      · rw [List.concat_eq_append, ← List.cons_append, ← List.append_assoc] at he
        exact hin w' (List.append_inj' he rfl).1
  · intro d r' hr'
    obtain ⟨r'', hr'', -⟩ := hcalls d r' hr'
    obtain ⟨t1, t2, h1, h2, h3⟩ := T.hb d r'' hr''
    refine ⟨t1, t2 ++ evs, by rw [h1, List.append_assoc], h2, fun c' hb => ?_⟩
    have hb := HB.old hcalls hb
    rw [dataOf_append, h3 c' hb]
    obtain ⟨⟨r3, hr3, ho3⟩, -⟩ := h.hb_le hb
    exact hnone c' (hover c' r3 hr3 ho3)

theorem TInv.call (h : WInv D mx n κ K K0) (T : TInv l κ K K0 S t) {op : Op α β} {H : List Cid} {V : View} {K2 : Know}
    (hK : K2.Passive) (hV : ∀ i ∈ op.needs, K2.V i ∧ K2.A i) :
    TInv l { κ with
        calls := upd κ.calls κ.next (some ⟨op, H, V, V, .running op.prog⟩)
        next := κ.next + 1 } (upd K κ.next K2) (upd K0 κ.next K2) (upd S κ.next (free [] ⟨K2.V, K2.A, K2.wn⟩)) t := by
  have hold : ∀ d r, κ.calls d = some r → d ≠ κ.next := by
    intro d r hr he; rw [he, (h.new κ.next (Nat.le_refl _)).1] at hr; cases hr
  have hHB : ∀ c d, ({ κ with
        calls := upd κ.calls κ.next (some ⟨op, H, V, V, .running op.prog⟩)
        next := κ.next + 1 } : Cfg α β).HB c d → d ≠ κ.next → κ.HB c d := by
    intro c d hb
    induction hb with
    | @one c d r hr hc =>
      intro hd
      have hr : upd κ.calls κ.next (some ⟨op, H, V, V, .running op.prog⟩) d = some r := hr
      rw [upd_apply, if_neg hd] at hr
      exact .one hr hc
    | @trans c d e _ _ ih1 ih2 =>
      intro he
      have h2 := ih2 he
      obtain ⟨⟨r, hr, -⟩, -⟩ := h.hb_le h2
      exact .trans (ih1 (hold d r hr)) h2
  exact
    { legal := T.legal
      val := T.val
      len := T.len
      data := T.data
      d := fun c => by
        rw [upd_apply]
        split
        · next hc => rw [hc, T.d, T.new _ (Nat.le_refl _)]
        · exact T.d c
      new := fun c hc => by
        have hc : κ.next + 1 ≤ c := hc
        rw [upd_apply, if_neg (Nat.ne_of_gt hc)]; exact T.new c (Nat.le_of_succ_le hc)
      loc := fun c => by
        by_cases hc : c = κ.next
        · subst hc
          rw [upd_same, upd_same]
          exact
            { own := fun i hi => absurd hi (hK.r i)
              held := fun i => by
                simp only [ne_eq, not_true_eq_false, false_iff]
                exact hK.l i
              hval := fun i v hi => by cases hi
              v := fun i hi => hi
              a := fun i hi => hi
              wn := Nat.le_refl _
              fresh := fun i hi _ => absurd hi (hK.u i) }
        · rw [upd_apply, if_neg hc, upd_apply, if_neg hc]; exact T.loc c
      fit := fun c r hr => by
        change upd κ.calls κ.next (some ⟨op, H, V, V, .running op.prog⟩) c = some r at hr
        rw [upd_apply] at hr
        split at hr
        · next hc =>
          subst hc
          injection hr with hr
          subst hr
          rw [upd_same, upd_same]
          exact op_does (V := ⟨K2.V, K2.A, K2.wn⟩) hV
        · next hc => rw [upd_apply, if_neg hc, upd_apply, if_neg hc]; exact T.fit c r hr
      allow := fun u e w he => by
        obtain ⟨r, h1, h2⟩ := T.allow u e w he
        exact ⟨r, by show upd κ.calls κ.next _ _ = _; rw [upd_apply, if_neg (hold _ _ h1)]; exact h1, h2⟩
      hb := fun d r hr => by
        have hr : upd κ.calls κ.next (some ⟨op, H, V, V, .running op.prog⟩) d = some r := hr
        by_cases hd : d = κ.next
        · subst hd
          exact ⟨t, [], by simp, by rw [T.d, T.new _ (Nat.le_refl _)], fun _ _ => rfl⟩
        · rw [upd_apply, if_neg hd] at hr
          obtain ⟨t1, t2, h1, h2, h3⟩ := T.hb d r hr
          exact ⟨t1, t2, h1, h2, fun c hc => h3 c (hHB c d hc hd)⟩ }

theorem TInv.reserveMax (T : TInv l κ K K0 S t) (q : Nat) : TInv l { κ with mem := κ.mem.reserveMax q } K K0 S t where
  legal := T.legal
  val := T.val
  len := T.len
  data := T.data
  d := T.d
  new := T.new
  loc c := { T.loc c with }
  fit := T.fit
  allow := T.allow
  hb d r hr := by
    obtain ⟨t1, t2, h1, h2, h3⟩ := T.hb d r hr
    exact ⟨t1, t2, h1, h2, fun c hc => h3 c (HB.old (fun _ r hr => ⟨r, hr, rfl⟩) hc)⟩

theorem TInv.step (h : WInv D mx n κ K K0) (T : TInv l κ K K0 S t) (hs : Step κ κ') (ho : ∀ c op, κ'.Called c op → Allowed D op)
    (hx : κ'.Exceeds mx) : ∃ K' K0' S' evs, WInv D mx n κ' K' K0' ∧ TInv l κ' K' K0' S' (t ++ evs) := by
  cases hs with
  | call op H V hH hn hp =>
    obtain ⟨K2, h1, h2, h3⟩ := h.call (ho κ.next op ⟨_, upd_same _ _ _, rfl⟩) hH hn hp
    exact ⟨_, _, _, [], h3, by rw [List.append_nil]; exact T.call h h1 h2⟩
  | act c r a again k t' V m b hc hr he =>
    have hf := h.fits c r hc
    unfold Fits at hf
    rw [hr] at hf
    have hfd := T.fit c r hc
    unfold Fit at hfd
    rw [hr] at hfd
    have hview := Cfg.viewOf_some hc
    rw [← hview] at he
    have hpre : Pre D κ.mem.maxCap (K c) a := hf.1
    have hgood := exec_good h.g h.k hpre he
    have hcan : Can D κ.mem.maxCap (K c) a b := hgood.can
    obtain ⟨h1, h2⟩ := hf.2 b hcan
    rcases hab : again b with _ | _
    · obtain ⟨hdc, g, hA⟩ := adds_act (σ := specAt (.ofList l) t) T.val T.len (legal_above T.legal) (h.k c) (T.loc c) hf.1 hcan
        hfd.1 (exec_effect he)
      obtain ⟨hal, hD⟩ := hfd.2 b g hdc hab
      refine ⟨upd K c (Weak.next (K c) a b), K0, upd S c (dnext c (S c) g a b), devs c (S c) g a b, ?_, ?_⟩
      · refine h.update hc ⟨_, hr⟩ hgood.max hgood.g hgood.k hgood.others (next_le _ _ _) ?_
        exact h2 hab
      · exact T.update h hc ⟨_, hr⟩ hgood.g hA hal hD
    · have hm := hgood.keeps (h1 hab)
      subst hm
      refine ⟨upd K c (K c), K0, upd S c (S c), [], ?_, ?_⟩
      · refine h.update hc ⟨_, hr⟩ rfl (by rw [upd_self]; exact h.g) ((h.k c).mono hgood.le) (fun d _ => h.k d) (.refl _) ?_
        exact hf
      · refine T.update h hc ⟨_, hr⟩ (by rw [upd_self]; exact h.g) (.nothing T.val T.len rfl rfl rfl (T.loc c)) (by simp) ?_
        exact hfd
  | bad c r a again k t x hc hr he =>
    have hf := h.fits c r hc
    unfold Fits at hf
    rw [hr] at hf
    rw [← Cfg.viewOf_some hc] at he
    have hpre : Pre D κ.mem.maxCap (K c) a := hf.1
    exact absurd he (exec_ok h.g h.k hpre)
  | ret c r x hc hr =>
    have hf := h.fits c r hc
    unfold Fits at hf
    rw [hr] at hf
    have hfd := T.fit c r hc
    unfold Fit at hfd
    rw [hr] at hfd
    refine ⟨upd K c (K c), K0, upd S c (S c), [], ?_, ?_⟩
    · have := h.k c
      rw [Cfg.viewOf_some hc] at this
      exact h.update hc (V := r.view) (s := .done x) ⟨_, hr⟩ rfl (by rw [upd_self]; exact h.g) this (fun d _ => h.k d) (.refl _) hf
    · exact T.update h hc (V := r.view) (s := .done x) ⟨_, hr⟩ (by rw [upd_self]; exact h.g)
        (.nothing T.val T.len rfl rfl rfl (T.loc c)) (by simp) hfd
  | panic c r k hc hr =>
    have hf := h.fits c r hc
    unfold Fits at hf
    rw [hr] at hf
    have hfd := T.fit c r hc
    unfold Fit at hfd
    rw [hr] at hfd
    refine ⟨upd K c (K c), K0, upd S c (S c), [], ?_, ?_⟩
    · have := h.k c
      rw [Cfg.viewOf_some hc] at this
      exact h.update hc (V := r.view) (s := .panicked k) ⟨_, hr⟩ rfl (by rw [upd_self]; exact h.g) this (fun d _ => h.k d) (.refl _) (Fits.panicked hx hf)
    · exact T.update h hc (V := r.view) (s := .panicked k) ⟨_, hr⟩ (by rw [upd_self]; exact h.g)
        (.nothing T.val T.len rfl rfl rfl (T.loc c)) (by simp) hfd
  | reserveMax q hi => exact ⟨K, K0, S, [], h.reserveMax q hi, by rw [List.append_nil]; exact T.reserveMax q⟩

theorem tinv_init {m : Mem α} (hm : InitMem m l) :
    TInv l (Cfg.init m : Cfg α β) (upd (fun _ => .empty) 0 (.start l.length)) (fun _ => .empty)
      (fun _ => free [] ⟨fun _ => False, fun _ => False, 0⟩) [] where
  legal := fun t1 e t2 he => by simp at he
  val := by funext i; exact (hm.val i).symm
  len := hm.reserved.symm
  data := by simp
  d _ := rfl
  new _ _ := rfl
  loc c :=
    { own := fun i hi => by rw [upd_apply] at hi; split at hi <;> exact hi.elim
      held := fun i => by
        simp only [ne_eq, not_true_eq_false, false_iff]
        intro hi; rw [upd_apply] at hi; split at hi <;> exact hi.elim
      hval := fun i v hi => by cases hi
      v := fun i hi => hi.elim
      a := fun i hi => hi.elim
      wn := Nat.zero_le _
      fresh := fun i hi _ => by rw [upd_apply] at hi; split at hi <;> exact hi.elim }
  fit c r hr := by cases hr
  allow u e w he := by simp at he
  hb d r hr := by cases hr

theorem tinv {m : Mem α} (hm : InitMem m l) (h : Reach m κ) (ho : ∀ c op, κ.Called c op → Allowed D op) :
    ∃ K K0 S t, WInv D m.maxCap l.length κ K K0 ∧ TInv l κ K K0 S t := by
  induction h with
  | init => exact ⟨_, _, _, _, winv_init hm, tinv_init hm⟩
  | step hr hs ih =>
    obtain ⟨K, K0, S, t, hi, hT⟩ := ih (fun c op hc => ho c op (Step.called hs (Reach.new hr) hc))
    obtain ⟨K', K0', S', evs, h1, h2⟩ := TInv.step hi hT hs ho (Reach.exceeds (.step hr hs) hm ho)
    exact ⟨K', K0', S', _, h1, h2⟩

end Verif.Weak
