import Verif.Weak.Trace
import Verif.Weak.SpecValues
import Verif.Proof.EventTime
import Mathlib.Tactic.Choose

/-!
# Consequences of the sequential order of the element accesses

Helper file (no property statements).
-/

namespace Verif.Weak

variable {α β : Type} {D : Mode} {mx n : Nat} {l : List α} {κ : Cfg α β} {K K0 : Cid → Know} {S : Cid → DS α} {t : List (Ev α)}

theorem explains_mono {op : Op α β} {c : Cid} {lo lo' : Nat} {d : List (Ev α)} {x : Ret α β} (h : lo' ≤ lo)
    (he : op.Explains c lo d x) : op.Explains c lo' d x := by
  cases op <;> simp only [Op.Explains] at he ⊢ <;> first
    | exact he
    | (obtain ⟨a, h1, h2⟩ := he; exact ⟨a, Nat.le_trans h h1, h2⟩)
    | (obtain ⟨a, b, h1, h2⟩ := he; exact ⟨a, b, Nat.le_trans h h1, h2⟩)

theorem allows_size {op : Op α β} {d : List (Ev α)} {c : Cid} {b n : Nat} (h : op.Allows d (.reserve c b n)) :
    op.size = some n := by
  cases op <;> simp only [Op.Allows] at h <;> simp [Op.size, h.2]

theorem prefix_get {γ : Type} {vs : List γ} {x : γ} {items : List (Option γ)} (h : vs.map some ++ [some x] <+: items) :
    items[vs.length]? = some (some x) := by
  obtain ⟨r, rfl⟩ := h
  simp

theorem allows_offers {op : Op α β} {d : List (Ev α)} {c : Cid} {i : Nat} {v : α} (h : op.Allows d (.publish c i v)) :
    ∃ b n, Ev.reserve c b n ∈ d ∧ b ≤ i ∧ op.Offers b (i - b) v := by
  cases op <;> simp only [Op.Allows] at h
  case push u =>
    obtain ⟨rfl, rfl⟩ := h
    exact ⟨i, 1, by simp, Nat.le_refl _, Nat.sub_self _, rfl⟩
  case pushForIdx f =>
    obtain ⟨rfl, hf⟩ := h
    exact ⟨i, 1, by simp, Nat.le_refl _, Nat.sub_self _, hf⟩
  case extend it =>
    obtain ⟨b, vs, rfl, rfl, h1, h2⟩ := h
    refine ⟨b, it.hint, by simp, Nat.le_add_right _ _, ?_⟩
    rw [Nat.add_sub_cancel_left]
    exact ⟨h1, prefix_get h2⟩
  case extendN items m =>
    obtain ⟨b, vs, rfl, rfl, h1, h2⟩ := h
    refine ⟨b, m, by simp, Nat.le_add_right _ _, ?_⟩
    rw [Nat.add_sub_cancel_left]
    exact ⟨h1, prefix_get h2⟩
  case extendForIdx f m =>
    obtain ⟨b, it, vs, hf, hh, rfl, rfl, h1, h2⟩ := h
    refine ⟨b, m, by simp, Nat.le_add_right _ _, ?_⟩
    rw [Nat.add_sub_cancel_left]
    exact ⟨h1, it, hf, prefix_get h2⟩

theorem WInv.knows (h : WInv D mx l.length κ K K0) {d : Cid} {r : Rec α β} (hd : κ.calls d = some r) {k : Nat} (hk : κ.KnowsLen l d k) :
    k ≤ (K0 d).wn := by
  rcases hk with rfl | ⟨c, op, x, hb, hr, hx⟩
  · exact Nat.le_trans h.zwn (h.base d r hd).wn
  · exact Nat.le_trans ((h.done hr).len k hx).2.1 (h.hb_le hb).2.wn

theorem TInv.hist (T : TInv l κ K K0 S t) {c : Cid} {op : Op α β} (hc : κ.Called c op) {d1 d2 : List (Ev α)} {e : Ev α}
    (hd : dataOf c t = d1 ++ e :: d2) : op.Allows d1 e := by
  obtain ⟨t1, t2, ht, h1, -, h3, h4⟩ := dataOf_split hd
  obtain ⟨r, hr, ha⟩ := T.allow t1 e t2 ht
  obtain ⟨r', hr', rfl⟩ := hc
  rw [h4, hr'] at hr
  injection hr with hr
  subst hr
  rw [h4, h1] at ha
  exact ha

theorem swap_last {op : Op α β} {i j : Nat} (ho : op.SwapOf i j) {d : List (Ev α)} {e e' : Ev α}
    (h1 : op.Allows d e) (h2 : op.Allows (d ++ [e]) e') : False := by
  cases op <;> simp only [Op.SwapOf] at ho <;> cases e <;> simp only [Op.Allows] at h1 <;>
    cases e' <;> simp only [Op.Allows] at h2 <;> grind

theorem swap_allows {op : Op α β} {i j : Nat} (ho : op.SwapOf i j) {e : Ev α} (h : op.Allows [] e) : e = .swap e.cid i j := by
  cases op <;> simp only [Op.SwapOf] at ho <;> cases e <;> simp only [Op.Allows] at h <;> simp only [Ev.cid] <;> grind

theorem TInv.explained (h : WInv D mx l.length κ K K0) (T : TInv l κ K K0 S t) : κ.ExplainedBy l t where
  replay := ⟨_, legal_replay T.legal, T.val⟩
  data := T.data
  changed e he := by
    obtain ⟨t1, t2, ht⟩ := List.append_of_mem he
    obtain ⟨r, hr, ha⟩ := T.allow t1 e t2 ht
    exact ⟨r.op, ⟨r, hr, rfl⟩, fun i hi => ha.mayWrite hi⟩
  swapped c op i j hc ho := by
    rcases hd : dataOf c t with _ | ⟨e, d⟩
    · exact .inl rfl
    · right
      have h1 := T.hist hc (d1 := []) hd
      have hce : e.cid = c := (mem_dataOf.1 (by rw [hd]; exact List.mem_cons_self : e ∈ dataOf c t)).2.2
      rcases d with _ | ⟨e', d⟩
      · have := swap_allows ho h1
        rw [hce] at this
        rw [this]
      · exact (swap_last ho h1 (T.hist hc (d1 := [] ++ [e]) hd)).elim
  reserved c b m he := by
    obtain ⟨t1, t2, ht⟩ := List.append_of_mem he
    obtain ⟨r, hr, ha⟩ := T.allow t1 _ t2 ht
    exact ⟨r.op, ⟨r, hr, rfl⟩, allows_size ha⟩
  published c i v he := by
    obtain ⟨t1, t2, ht⟩ := List.append_of_mem he
    obtain ⟨r, hr, ha⟩ := T.allow t1 _ t2 ht
    obtain ⟨b, m, h1, h2, h3⟩ := allows_offers ha
    exact ⟨r.op, b, m, ⟨r, hr, rfl⟩, by rw [ht]; exact List.mem_append_left _ (mem_dataOf.1 h1).1, h2, h3⟩
  returned c op x k hr hk := by
    obtain ⟨r, hc, rfl, hs⟩ := hr
    have hf := T.fit c r hc
    unfold Fit at hf
    rw [hs] at hf
    rw [T.d]
    exact explains_mono (h.knows hc hk) hf
  panicked c op k hr := by
    obtain ⟨r, hc, rfl, hs⟩ := hr
    have hf := T.fit c r hc
    unfold Fit at hf
    rw [hs] at hf
    rw [T.d]
    exact hf
  order d op hd := by
    obtain ⟨r, hr, -⟩ := hd
    exact T.hb d r hr

/-! ## moments -/

theorem last_unique {t t1 t2 t1' t2' : List (Ev α)} {c : Cid} {e e' : Ev α} (h : t = t1 ++ e :: t2) (h' : t = t1' ++ e' :: t2')
    (hd : e.isData = true) (hd' : e'.isData = true) (hc : e.cid = c) (hc' : e'.cid = c) (hl : dataOf c t2 = [])
    (hl' : dataOf c t2' = []) : t1.length = t1'.length := by
  have key : ∀ {t1 t2 t1' t2' : List (Ev α)} {e e' : Ev α}, t1 ++ e :: t2 = t1' ++ e' :: t2' → e'.isData = true → e'.cid = c →
      dataOf c t2 = [] → ¬ t1.length < t1'.length := by
    intro t1 t2 t1' t2' e e' h hd hc hl hlt
    obtain ⟨u, rfl⟩ : ∃ u, t1' = t1 ++ e :: u := by
      have h1 : t1 ++ [e] <+: t1' := by
        refine List.prefix_of_prefix_length_le (l₃ := t1 ++ e :: t2) ⟨t2, by simp⟩ ⟨e' :: t2', h.symm⟩ ?_
        rw [List.length_append]; exact hlt
      obtain ⟨u, hu⟩ := h1
      exact ⟨u, by rw [← hu]; simp⟩
    rw [List.append_assoc, List.append_cancel_left_eq, List.cons_append, List.cons.injEq] at h
    have hm : e' ∈ dataOf c t2 := mem_dataOf.2 ⟨by rw [h.2]; simp, hd, hc⟩
    rw [hl] at hm
    cases hm
  have h1 := key (h.symm.trans h') hd' hc' hl
  have h2 := key (h'.symm.trans h) hd hc hl'
  omega

/-- Content after `k` accesses. -/
def content (l : List α) (t : List (Ev α)) (k : Nat) : Nat → Option α := (specAt (.ofList l) (t.take k)).val

theorem content_at {t1 t2 : List (Ev α)} {e : Ev α} (hleg : Legal (.ofList l) (t1 ++ e :: t2)) :
    specOk (specAt (.ofList l) t1) e ∧ content l (t1 ++ e :: t2) t1.length = (specAt (.ofList l) t1).val ∧
    content l (t1 ++ e :: t2) (t1.length + 1) = (specNext (specAt (.ofList l) t1) e).val := by
  refine ⟨hleg t1 e t2 rfl, ?_, ?_⟩
  · unfold content; rw [List.take_left]
  · unfold content
    have : t1 ++ e :: t2 = (t1 ++ [e]) ++ t2 := by simp
    rw [this, List.take_left' (by simp), specAt_snoc]

/-- The one access of a call that acted at one moment. -/
theorem acted_last (E : κ.ExplainedBy l t) {c : Cid} (h : κ.Acted c) : ∃ d e, dataOf c t = d ++ [e] := by
  have key : ∀ op x, κ.Returned c op x → op.Explains c l.length (dataOf c t) x :=
    fun op x hr => E.returned c op x _ hr (.inl rfl)
  rcases h with ⟨op, x, hr, ⟨i, ho, hx⟩ | ⟨i, j, ho, rfl⟩ | ⟨v, rfl⟩⟩ | ⟨f, e, k, hp⟩
  · have hk := key op x hr
    cases op <;> simp only [Op.OnElement] at ho <;> simp only [Op.Explains] at hk
    case getCloned e =>
      rcases hk with ⟨v, -, hd⟩ | ⟨rfl, -⟩
      · exact ⟨[], _, hd⟩
      · exact absurd rfl hx
    case slGetCloned s e =>
      rcases hk with ⟨-, v, -, hd⟩ | ⟨-, rfl, -⟩
      · exact ⟨[], _, hd⟩
      · exact absurd rfl hx
    case elCloned e => obtain ⟨v, -, hd⟩ := hk; exact ⟨[], _, hd⟩
    case elMap f e => obtain ⟨v, b, -, -, hd⟩ := hk; exact ⟨[], _, hd⟩
    case elReplace e v => obtain ⟨old, -, hd⟩ := hk; exact ⟨[_], _, hd⟩
    case elSet e v => obtain ⟨old, -, hd⟩ := hk; exact ⟨[], _, hd⟩
    case elUpdate f e => obtain ⟨old, -, -, hd⟩ := hk; exact ⟨[_], _, hd⟩
    case elEq veq v e => obtain ⟨old, -, hd⟩ := hk; exact ⟨[], _, hd⟩
  · have hk := key op _ hr
    cases op <;> simp only [Op.SwapOf] at ho <;> simp only [Op.Explains] at hk
    · rcases hk with ⟨-, -, hd⟩ | ⟨hx, -⟩
      · exact ⟨[], _, hd⟩
      · cases hx
    · rcases hk with ⟨-, -, -, -, hd⟩ | ⟨hx, -⟩
      · exact ⟨[], _, hd⟩
      · cases hx
  · obtain ⟨i, -, hd⟩ := key _ x hr
    exact ⟨[_], _, hd⟩
  · obtain ⟨old, -, hd⟩ := E.panicked c _ k hp
    exact ⟨[_], _, hd⟩

theorem onElement_last {op : Op α β} {i j : Nat} (ho : op.OnElement i) {d : List (Ev α)} {e e' : Ev α}
    (hm : e.Modifies j) (h1 : op.Allows d e) (h2 : op.Allows (d ++ [e]) e') : False := by
  cases op <;> simp only [Op.OnElement] at ho <;> cases e <;> simp only [Op.Allows, Ev.Modifies] at h1 hm <;>
    cases e' <;> simp only [Op.Allows] at h2 <;> grind

theorem TInv.linearized (h : WInv D mx l.length κ K K0) (T : TInv l κ K K0 S t) :
    ∃ lin, κ.Linearized l t.length (content l t) lin := by
  have E := T.explained h
  have hex : ∀ c : Cid, ∃ k, ∀ t1 e t2, t = t1 ++ e :: t2 → e.isData = true → e.cid = c → dataOf c t2 = [] → k = t1.length := by
    intro c
    by_cases hde : ∃ t1 e t2, t = t1 ++ e :: t2 ∧ e.isData = true ∧ e.cid = c ∧ dataOf c t2 = []
    · obtain ⟨t1, e, t2, h1, h2, h3, h4⟩ := hde
      exact ⟨t1.length, fun t1' e' t2' h1' h2' h3' h4' => last_unique h1 h1' h2 h2' h3 h3' h4 h4'⟩
    · exact ⟨0, fun t1 e t2 h1 h2 h3 h4 => absurd ⟨t1, e, t2, h1, h2, h3, h4⟩ hde⟩
  choose lin hlin using hex
  -- the moment of a call
  have hat : ∀ {c d e}, dataOf c t = d ++ [e] → ∃ t1 t2, t = t1 ++ e :: t2 ∧ dataOf c t1 = d ∧ dataOf c t2 = [] ∧ e.cid = c ∧
      e.isData = true ∧ lin c = t1.length ∧ lin c < t.length ∧ specOk (specAt (.ofList l) t1) e ∧
      content l t (lin c) = (specAt (.ofList l) t1).val ∧
      content l t (lin c + 1) = (specNext (specAt (.ofList l) t1) e).val := by
    intro c d e hd
    obtain ⟨t1, t2, h1, h2, h3, h4, h5⟩ := dataOf_split hd
    have hk := hlin c t1 e t2 h1 h4 h5 h3
    have hleg := T.legal
    rw [h1] at hleg
    obtain ⟨k1, k2, k3⟩ := content_at hleg
    refine ⟨t1, t2, h1, h2, h3, h5, h4, hk, ?_, k1, ?_, ?_⟩
    · rw [hk, h1]; simp
    · rw [hk, h1]; exact k2
    · rw [hk, h1]; exact k3
  have hexp : ∀ c op x, κ.Returned c op x → op.Explains c l.length (dataOf c t) x :=
    fun c op x hr => E.returned c op x _ hr (.inl rfl)
  have hone : ∀ c op x i, κ.Returned c op x → op.OnElement i → x ≠ .optVal none →
      ∃ d e, dataOf c t = d ++ [e] ∧ (∀ k, (∀ σ : SpecSt α, σ.val k ≠ (specNext σ e).val k → op.MayWrite k)) ∧
        ∀ σ, specOk σ e → ∃ old new, σ.val i = some old ∧
        (specNext σ e).val i = some new ∧ op.Atomic i old new x := by
    intro c op x i hr ho hx
    have hout := hexp c op x hr
    cases op <;> simp only [Op.OnElement] at ho
    case getCloned e =>
      subst ho
      rcases hout with ⟨v, rfl, hd⟩ | ⟨rfl, -⟩
      · exact ⟨[], _, hd, fun k σ hne => absurd rfl hne, fun σ hok => ⟨v, v, hok, hok, rfl, rfl, rfl⟩⟩
      · exact absurd rfl hx
    case elCloned e =>
      subst ho
      obtain ⟨v, rfl, hd⟩ := hout
      exact ⟨[], _, hd, fun k σ hne => absurd rfl hne, fun σ hok => ⟨v, v, hok, hok, rfl, rfl, rfl⟩⟩
    case elMap f e =>
      subst ho
      obtain ⟨v, b, rfl, hf, hd⟩ := hout
      exact ⟨[], _, hd, fun k σ hne => absurd rfl hne, fun σ hok => ⟨v, v, hok, hok, rfl, rfl, b, hf, rfl⟩⟩
    case elReplace e v =>
      subst ho
      obtain ⟨old, rfl, hd⟩ := hout
      refine ⟨[_], _, hd, fun k σ hne => ?_, fun σ hok => ⟨old, v, hok, by simp [specNext], rfl, rfl, rfl⟩⟩
      simp only [specNext, upd_apply] at hne
      split at hne
      · next hk => exact hk.symm
      · exact absurd rfl hne
    case elSet e v =>
      subst ho
      obtain ⟨old, rfl, hd⟩ := hout
      refine ⟨[], _, hd, fun k σ hne => ?_, fun σ hok => ⟨old, v, hok, by simp [specNext], rfl, rfl, rfl⟩⟩
      simp only [specNext, upd_apply] at hne
      split at hne
      · next hk => exact hk.symm
      · exact absurd rfl hne
    case elUpdate f e =>
      subst ho
      obtain ⟨old, rfl, hf, hd⟩ := hout
      refine ⟨[_], _, hd, fun k σ hne => ?_,
        fun σ hok => ⟨old, (f old).1, hok, by simp [specNext], rfl, by rw [← hf], rfl⟩⟩
      simp only [specNext, upd_apply] at hne
      split at hne
      · next hk => exact hk.symm
      · exact absurd rfl hne
    case elEq veq v e =>
      subst ho
      obtain ⟨old, rfl, hd⟩ := hout
      exact ⟨[], _, hd, fun k σ hne => absurd rfl hne, fun σ hok => ⟨old, old, hok, hok, rfl, rfl, rfl⟩⟩
    case slGetCloned s e =>
      subst ho
      rcases hout with ⟨-, v, rfl, hd⟩ | ⟨-, rfl, -⟩
      · exact ⟨[], _, hd, fun k σ hne => absurd rfl hne, fun σ hok => ⟨v, v, hok, hok, rfl, rfl, rfl⟩⟩
      · exact absurd rfl hx
  have hswap : ∀ c op i j, κ.Returned c op (.bool true) → op.SwapOf i j → i ≠ j ∧ dataOf c t = [] ++ [.swap c i j] := by
    intro c op i j hr ho
    have hout := hexp c op _ hr
    cases op <;> simp only [Op.SwapOf] at ho
    · obtain ⟨rfl, rfl⟩ := ho
      rcases hout with ⟨hne, -, hd⟩ | ⟨hx, -⟩
      · exact ⟨hne, hd⟩
      · cases hx
    · obtain ⟨rfl, rfl⟩ := ho
      rcases hout with ⟨-, -, hne, -, hd⟩ | ⟨hx, -⟩
      · exact ⟨by omega, hd⟩
      · cases hx
  have hpush : ∀ c v i, κ.Returned c (.push v) (.nat i) → dataOf c t = [.reserve c i 1] ++ [.publish c i v] := by
    intro c v i hr
    obtain ⟨i', hx, hd⟩ := hexp c _ _ hr
    simp only [Ret.nat.injEq] at hx
    subst hx
    exact hd
  refine ⟨lin, ?_⟩
  exact
    { first := fun i => rfl
      last := by
        have : content l t t.length = (specAt (.ofList l) t).val := by unfold content; rw [List.take_length]
        rw [this]; exact T.val
      element := fun c op x i hr ho hx => by
        obtain ⟨d, e, hd, -, hat'⟩ := hone c op x i hr ho hx
        obtain ⟨t1, t2, -, -, -, -, -, -, k1, k2, k3, k4⟩ := hat hd
        obtain ⟨old, new, h1, h2, h3⟩ := hat' _ k2
        exact ⟨k1, old, new, by rw [k3]; exact h1, by rw [k4]; exact h2, h3⟩
      panicked := fun c f i k hp => by
        obtain ⟨old, hf, hd⟩ := E.panicked c _ k hp
        obtain ⟨t1, t2, -, -, -, -, -, -, k1, k2, k3, k4⟩ := hat (d := [_]) hd
        exact ⟨k1, old, by rw [k3]; exact k2, by rw [k4]; simp [specNext], hf⟩
      swap := fun c op i j hr ho => by
        obtain ⟨hne, hd⟩ := hswap c op i j hr ho
        obtain ⟨t1, t2, -, -, -, -, -, -, k1, k2, k3, k4⟩ := hat hd
        obtain ⟨-, hi, hj⟩ := k2
        obtain ⟨a, ha⟩ := Option.isSome_iff_exists.1 hi
        obtain ⟨b, hb⟩ := Option.isSome_iff_exists.1 hj
        refine ⟨k1, hne, a, b, by rw [k3]; exact ha, by rw [k3]; exact hb, ?_, ?_⟩
        · rw [k4]; simp [specNext, hne, hb]
        · rw [k4]; simp [specNext, ha]
      push := fun c v i hr => by
        obtain ⟨t1, t2, -, -, -, -, -, -, k1, k2, k3, k4⟩ := hat (hpush c v i hr)
        exact ⟨k1, by rw [k3]; exact k2.2.2, by rw [k4]; simp [specNext]⟩
      only := fun c op x k hr ha hne => by
        rcases ha with ⟨i, ho, hx⟩ | ⟨i, j, ho, rfl⟩ | ⟨v, rfl⟩
        · obtain ⟨d, e, hd, hmw, -⟩ := hone c op x i hr ho hx
          obtain ⟨t1, t2, -, -, -, -, -, -, k1, k2, k3, k4⟩ := hat hd
          rw [k3, k4] at hne
          exact .inl (hmw k _ hne)
        · obtain ⟨-, hd⟩ := hswap c op i j hr ho
          obtain ⟨t1, t2, -, -, -, -, -, -, k1, k2, k3, k4⟩ := hat hd
          rw [k3, k4] at hne
          left
          have hk : k = i ∨ k = j := by
            simp only [specNext, upd_apply] at hne
            split at hne
            · next h => exact .inr h
            · split at hne
              · next h => exact .inl h
              · exact absurd rfl hne
          cases op <;> simp only [Op.SwapOf] at ho <;> simp only [Op.MayWrite]
          · rw [← ho.1, ← ho.2]; exact hk
          · rw [← ho.1, ← ho.2]; exact hk
        · obtain ⟨i, rfl, -⟩ := hexp c _ _ hr
          obtain ⟨t1, t2, -, -, -, -, -, -, k1, k2, k3, k4⟩ := hat (hpush c v i hr)
          rw [k3, k4] at hne
          simp only [specNext, upd_apply] at hne
          split at hne
          · next hk => exact .inr (by rw [hk])
          · exact absurd rfl hne
      other := fun k i hk hne => by
        have hsplit : t = t.take k ++ t[k] :: t.drop (k + 1) := by simp
        have hlen : (t.take k).length = k := by rw [List.length_take]; omega
        generalize hu : t.take k = u at hsplit hlen
        generalize t[k] = e at hsplit
        generalize t.drop (k + 1) = w at hsplit
        have hleg := T.legal
        rw [hsplit] at hleg
        obtain ⟨k1, k2, k3⟩ := content_at hleg
        rw [← hsplit, hlen] at k2 k3
        rw [k2, k3] at hne
        rw [k2]
        obtain ⟨r, hr, ha⟩ := T.allow u e w hsplit
        refine ⟨e.cid, r.op, ⟨r, hr, rfl⟩, ?_⟩
        have hdat := T.data e (by rw [hsplit]; simp)
        have hlast : ∀ e' d2, dataOf e.cid w = e' :: d2 → r.op.Allows (dataOf e.cid u ++ [e]) e' := by
          intro e' d2 hw
          refine T.hist (c := e.cid) (op := r.op) ⟨r, hr, rfl⟩ (d2 := d2) ?_
          rw [hsplit, dataOf_append, dataOf_cons_data hdat rfl, hw]
          simp
        have hfin : (∀ e', r.op.Allows (dataOf e.cid u ++ [e]) e' → False) → lin e.cid = k := by
          intro hno
          rw [← hlen]
          refine hlin e.cid u e w hsplit hdat rfl ?_
          rcases hw : dataOf e.cid w with _ | ⟨e', d2⟩
          · rfl
          · exact (hno e' (hlast e' d2 hw)).elim
        by_cases hm : e.Modifies i
        · refine .inr ⟨ha.mayWrite hm, ?_, ?_⟩
          · cases e <;> simp only [Ev.Modifies] at hm
            · subst hm; simp only [specOk] at k1; rw [k1]; rfl
            · rcases hm with rfl | rfl
              · exact k1.2.1
              · exact k1.2.2
          · rintro (⟨j, ho⟩ | ⟨j, j', ho⟩)
            · exact hfin fun e' h' => onElement_last ho hm ha h'
            · exact hfin fun e' h' => swap_last ho ha h'
        · left
          cases e with
          | publish c j v =>
            simp only [specNext, upd_apply] at hne
            split at hne
            · next hij =>
              subst hij
              refine ⟨?_, k1.2.2⟩
              obtain ⟨b, m, -, -, hoff⟩ := allows_offers ha
              intro hs
              cases hop : r.op <;> rw [hop] at hoff hs <;> simp only [Op.Offers] at hoff <;> simp [Op.size] at hs
            · exact absurd rfl hne
          | write c j o v =>
            simp only [specNext, upd_apply] at hne
            split at hne
            · next hij => exact absurd hij hm
            · exact absurd rfl hne
          | swap c j j' =>
            simp only [specNext, upd_apply] at hne
            split at hne
            · next hij => exact absurd (.inr hij) hm
            · split at hne
              · next hij => exact absurd (.inl hij) hm
              · exact absurd rfl hne
          | _ => exact absurd rfl hne
      inj := fun c d hc hd heq => by
        obtain ⟨d1, e1, h1⟩ := acted_last E hc
        obtain ⟨d2, e2, h2⟩ := acted_last E hd
        obtain ⟨u, w, k1, -, -, k4, -, k6, -⟩ := hat h1
        obtain ⟨u', w', q1, -, -, q4, -, q6, -⟩ := hat h2
        rw [k1] at q1
        obtain ⟨-, he⟩ := List.append_inj q1 (by rw [← k6, ← q6]; exact heq)
        injection he with he
        rw [← k4, ← q4, he]
      order := fun c d hb hc hd => by
        obtain ⟨d1, e1, h1⟩ := acted_last E hc
        obtain ⟨d2, e2, h2⟩ := acted_last E hd
        obtain ⟨u, w, k1, -, -, k4, k5, k6, -⟩ := hat h1
        obtain ⟨u', w', q1, -, -, q4, q5, q6, -⟩ := hat h2
        have hcd : ∃ op, κ.Called d op := by
          rcases hd with ⟨op, x, ⟨r, hr, ho, -⟩, -⟩ | ⟨f, e, k, r, hr, ho, -⟩
          · exact ⟨op, r, hr, ho⟩
          · exact ⟨_, r, hr, ho⟩
        obtain ⟨op, hcd⟩ := hcd
        obtain ⟨t1, t2, r1, r2, r3⟩ := E.order d op hcd
        have r3 := r3 c hb
        rw [k6, q6]
        have a1 : u.length < t1.length := by
          rcases Nat.lt_or_ge u.length t1.length with hlt | hge
          · exact hlt
          · exfalso
            have hp : t1 <+: u := List.prefix_of_prefix_length_le (l₃ := t) ⟨t2, r1.symm⟩ ⟨e1 :: w, k1.symm⟩ hge
            obtain ⟨z, rfl⟩ := hp
            rw [k1, List.append_assoc, List.append_cancel_left_eq] at r1
            have : e1 ∈ dataOf c t2 := mem_dataOf.2 ⟨by rw [← r1]; simp, k5, k4⟩
            rw [r3] at this
            cases this
        have a2 : t1.length ≤ u'.length := by
          rcases Nat.lt_or_ge u'.length t1.length with hlt | hge
          · exfalso
            have hp : u' ++ [e2] <+: t1 := List.prefix_of_prefix_length_le (l₃ := t) ⟨w', by rw [q1]; simp⟩ ⟨t2, r1.symm⟩
              (by rw [List.length_append]; exact hlt)
            obtain ⟨z, rfl⟩ := hp
            have : e2 ∈ dataOf d (u' ++ [e2] ++ z) := mem_dataOf.2 ⟨by simp, q5, q4⟩
            rw [r2] at this
            cases this
          · exact hge
        omega }

/-! ## first values, writes -/

theorem explained_legal (E : κ.ExplainedBy l t) : Legal (.ofList l) t ∧ (specAt (.ofList l) t).val = κ.mem.val := by
  obtain ⟨σ, h1, h2⟩ := E.replay
  exact ⟨h1.ok, by rw [← h1.eq]; exact h2⟩

theorem returned_called {c : Cid} {op : Op α β} {x : Ret α β} (h : κ.Returned c op x) : κ.Called c op := by
  obtain ⟨r, hr, ho, -⟩ := h
  exact ⟨r, hr, ho⟩

theorem called_unique {c : Cid} {op op' : Op α β} (h : κ.Called c op) (h' : κ.Called c op') : op = op' := by
  obtain ⟨r, hr, rfl⟩ := h
  obtain ⟨r', hr', rfl⟩ := h'
  rw [hr] at hr'
  injection hr' with hr'
  rw [hr']

/-- Accesses of a growth call that returned. -/
theorem explains_growth {op : Op α β} {c : Cid} {lo b : Nat} {d : List (Ev α)} {vs : List α} (he : op.Explains c lo d (.nat b))
    (hs : op.Stores b vs) : d = .reserve c b vs.length :: pubs c b vs := by
  have grew : ∀ {items : List (Option α)} {n : Nat}, Grew c items n d b → vs.length = n → vs.map some <+: items →
      d = .reserve c b vs.length :: pubs c b vs := by
    rintro items n ⟨us, rest, h1, h2, rfl⟩ h3 h4
    have : us.map some = vs.map some := by
      have h5 : us.map some <+: items := ⟨rest, h2.symm⟩
      have h6 : us.map some <+: vs.map some :=
        List.prefix_of_prefix_length_le h5 h4 (by simp [h1, h3])
      exact h6.eq_of_length (by simp [h1, h3])
    have : us = vs := by
      have := congrArg (List.filterMap id) this
      simpa [List.filterMap_map] using this
    subst this
    rw [h3]
  cases op <;> simp only [Op.Stores] at hs <;> simp only [Op.Explains, Ret.nat.injEq] at he
  case push v =>
    obtain ⟨i, rfl, rfl⟩ := he
    subst hs
    rfl
  case pushForIdx f =>
    obtain ⟨i, v, rfl, hf, rfl⟩ := he
    obtain ⟨u, hu, rfl⟩ := hs
    rw [hf] at hu
    injection hu with hu
    subst hu
    rfl
  case extend it =>
    obtain ⟨i, rfl, hg⟩ := he
    exact grew hg hs.1 hs.2
  case extendN items m =>
    obtain ⟨i, rfl, hg⟩ := he
    exact grew hg hs.1 hs.2
  case extendForIdx f m =>
    obtain ⟨i, it, rfl, hf, -, hg⟩ := he
    obtain ⟨it', hf', h1, h2⟩ := hs
    rw [hf] at hf'
    injection hf' with hf'
    subst hf'
    exact grew hg h1 h2

theorem not_modified_before {σ : SpecSt α} {t1 t2 : List (Ev α)} {c : Cid} {i : Nat} {v : α}
    (h : Legal σ (t1 ++ .publish c i v :: t2)) : ∀ e ∈ t1, ¬ e.Modifies i := by
  intro e he hm
  obtain ⟨u, w, rfl⟩ := List.append_of_mem he
  have h1 : specOk (specAt σ u) e := h u e (w ++ .publish c i v :: t2) (by simp)
  have h2 := h (u ++ e :: w) _ t2 rfl
  have hs : ((specAt σ u).val i).isSome := by
    cases e <;> simp only [Ev.Modifies] at hm
    · subst hm; simp only [specOk] at h1; rw [h1]; rfl
    · rcases hm with rfl | rfl
      · exact h1.2.1
      · exact h1.2.2
  have hleg : Legal σ (u ++ e :: w) := h.prefix
  have := specAt_pub hleg.suffix hs
  rw [← specAt_append] at this
  rw [h2.2.2] at this
  cases this

theorem explained_born (E : κ.ExplainedBy l t) {i : Nat} {v : α} (hb : κ.Born l i v) :
    ∃ t1 t2, t = t1 ++ t2 ∧ (∀ e ∈ t1, ¬ e.Modifies i) ∧ (specAt (.ofList l) t1).val i = some v := by
  rcases hb with hb | ⟨c, op, b, vs, hr, hs, hbi, hv⟩
  · exact ⟨[], t, rfl, by simp, hb⟩
  · have hd := explains_growth (E.returned c op _ _ hr (.inl rfl)) hs
    have hm : Ev.publish c i v ∈ t := by
      have : Ev.publish c (b + (i - b)) v ∈ dataOf c t := by rw [hd]; exact List.mem_cons_of_mem _ (mem_pubs hv)
      rw [Nat.add_sub_cancel' hbi] at this
      exact (mem_dataOf.1 this).1
    obtain ⟨t1, t2, rfl⟩ := List.append_of_mem hm
    have hleg := (explained_legal E).1
    refine ⟨t1 ++ [.publish c i v], t2, by simp, ?_, by rw [specAt_snoc]; simp [specNext]⟩
    intro e he
    rcases List.mem_append.1 he with he | he
    · exact not_modified_before hleg e he
    · rw [List.mem_singleton] at he; subst he; exact fun h => h

/-- All writes to a position, given that the calls that may write to it are known and write once each. -/
theorem explained_writes (E : κ.ExplainedBy l t) {i : Nat} {v0 : α} (hb : κ.Born l i v0)
    {ws : List (Cid × α × α)} (hnd : (ws.map fun w => w.1).Nodup)
    (hw : ∀ w ∈ ws, (dataOf w.1 t).filterMap (wr i) = [w])
    (hall : ∀ c op, κ.Called c op → op.MayWrite i → c ∈ ws.map fun w => w.1)
    (hns : ∀ c j k, Ev.swap c j k ∈ t → i ≠ j ∧ i ≠ k) :
    ∃ v ws', κ.mem.val i = some v ∧ Chain v0 ws' v ∧ ws'.Perm ws := by
  obtain ⟨hleg, hval⟩ := explained_legal E
  obtain ⟨t1, u, ht, hno, hv⟩ := explained_born E hb
  have hmod : ∀ e ∈ t, e.Modifies i → e.cid ∈ ws.map fun w => w.1 := by
    intro e he hm
    obtain ⟨op, h1, h2⟩ := E.changed e he
    exact hall _ op h1 (h2 i hm)
  have hleg' := hleg
  rw [ht] at hleg'
  obtain ⟨v, h1, h2⟩ := hleg'.suffix.chain hv (fun c j k hk => hns c j k (by rw [ht]; exact List.mem_append_right _ hk))
  refine ⟨v, _, ?_, h2, ?_⟩
  · rw [← hval, ht, specAt_append, h1]
  · have hpre : t1.filterMap (wr i) = [] := by
      rw [List.filterMap_eq_nil_iff]
      intro e he
      have := hno e he
      cases e <;> simp [Ev.Modifies] at this ⊢
      grind
    have hfull : t.filterMap (wr i) = u.filterMap (wr i) := by
      rw [ht, List.filterMap_append, hpre, List.nil_append]
    rw [← hfull]
    have hmem : ∀ w, w ∈ t.filterMap (wr i) → w ∈ ws := by
      rintro ⟨c, v, o⟩ hw'
      have hev := mem_wr.1 hw'
      have := hmod _ hev (rfl : i = i)
      rw [List.mem_map] at this
      obtain ⟨w, hww, hwc⟩ := this
      have hwc : w.1 = c := hwc
      subst hwc
      have h3 := hw w hww
      have h4 : (w.1, v, o) ∈ (dataOf w.1 t).filterMap (wr i) := mem_wr.2 (mem_dataOf.2 ⟨hev, rfl, rfl⟩)
      rw [h3, List.mem_singleton] at h4
      rw [h4]; exact hww
    have hnd1 : (t.filterMap (wr i)).Nodup := by
      apply List.Nodup.of_map (fun w : Cid × α × α => w.1)
      rw [List.nodup_iff_count_le_one]
      intro c
      rw [count_wr]
      by_cases hc : c ∈ ws.map fun w => w.1
      · rw [List.mem_map] at hc
        obtain ⟨w, hww, rfl⟩ := hc
        rw [hw w hww]; simp
      · have : (dataOf c t).filterMap (wr i) = [] := by
          rw [List.filterMap_eq_nil_iff]
          intro e he
          by_contra hne
          obtain ⟨⟨c', v', o'⟩, hx⟩ := Option.ne_none_iff_exists'.1 hne
          have he' := mem_dataOf.1 he
          have hm : e.Modifies i := by
            cases e <;> simp at hx
            simp [Ev.Modifies, hx.1]
          exact hc (he'.2.2 ▸ hmod e he'.1 hm)
        rw [this]; simp
    rw [List.perm_ext_iff_of_nodup hnd1 (List.Nodup.of_map _ hnd)]
    intro w
    refine ⟨hmem w, fun hww => ?_⟩
    have h3 := hw w hww
    have h4 : w ∈ (dataOf w.1 t).filterMap (wr i) := by rw [h3]; simp
    have h5 := mem_wr.1 (show (w.1, w.2.1, w.2.2) ∈ _ from h4)
    exact mem_wr.2 (mem_dataOf.1 h5).1

/-- A call that happens after all calls writing to `i` reads its last value. -/
theorem explained_read_last (E : κ.ExplainedBy l t) {d : Cid} {i : Nat} {v : α} (he : Ev.read d i v ∈ dataOf d t)
    (hall : ∀ c op, κ.Called c op → op.MayWrite i → κ.HB c d) : κ.mem.val i = some v := by
  obtain ⟨hleg, hval⟩ := explained_legal E
  obtain ⟨op, hop, -⟩ := E.changed _ (mem_dataOf.1 he).1
  obtain ⟨t1, t2, ht, h1, h2⟩ := E.order d op hop
  have he2 : Ev.read d i v ∈ t2 := by
    rw [ht, dataOf_append, h1, List.nil_append] at he
    exact (mem_dataOf.1 he).1
  obtain ⟨u, w, rfl⟩ := List.append_of_mem he2
  have hok : specOk (specAt (.ofList l) (t1 ++ u)) (.read d i v) := hleg (t1 ++ u) _ w (by rw [ht]; simp)
  have hleg' : Legal (.ofList l) ((t1 ++ u) ++ Ev.read d i v :: w) := by
    have := hleg; rw [ht] at this; simpa using this
  have hk := specAt_keep hleg'.suffix hok (i := i) (fun e he hm => by
    obtain ⟨op', hc', hw'⟩ := E.changed e (by rw [ht]; simp at he ⊢; tauto)
    have hb := h2 _ (hall _ op' hc' (hw' i hm))
    have hin : e ∈ dataOf e.cid (u ++ Ev.read d i v :: w) :=
      mem_dataOf.2 ⟨List.mem_append_right _ he, E.data e (by rw [ht]; simp at he ⊢; tauto), rfl⟩
    rw [hb] at hin
    cases hin)
  rw [← hval, ht, ← hk, ← specAt_append, List.append_assoc]

/-- If nobody writes to `i`, everybody reads its first value. -/
theorem explained_read_first (E : κ.ExplainedBy l t) {d : Cid} {i : Nat} {u v : α} (he : Ev.read d i v ∈ t) (hb : κ.Born l i u)
    (hall : κ.Only fun op => ¬ op.MayWrite i) : v = u := by
  obtain ⟨hleg, hval⟩ := explained_legal E
  have hno : ∀ e ∈ t, ¬ e.Modifies i := by
    intro e he hm
    obtain ⟨op, h1, h2⟩ := E.changed e he
    exact hall _ op h1 (h2 i hm)
  obtain ⟨t1, t2, ht, -, hv⟩ := explained_born E hb
  have hlast : (specAt (.ofList l) t).val i = some u := by
    rw [ht, specAt_append]
    rw [ht] at hleg
    exact specAt_keep hleg.suffix hv (fun e he => hno e (by rw [ht]; exact List.mem_append_right _ he))
  obtain ⟨a, b, ht'⟩ := List.append_of_mem he
  have hok : specOk (specAt (.ofList l) a) (.read d i v) := hleg a _ b ht'
  rw [ht'] at hlast hleg
  rw [specAt_append] at hlast
  have := specAt_keep hleg.suffix hok (i := i) (fun e he => hno e (by rw [ht']; exact List.mem_append_right _ he))
  rw [this] at hlast
  exact Option.some.inj hlast

end Verif.Weak
