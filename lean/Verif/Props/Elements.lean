import Verif.Proof.EventTime
import Verif.Props.Demo
import Mathlib.Tactic.Choose

/-!
# Operations on single elements: C14, C15, C16, C17
-/

namespace Verif

variable {α β : Type} {m : Mem α} {l : List α} {n : Nat} {κ : Nat → Cfg α β}

/-! ## C14 -/

/-- **C14.** A value returned by `get_cloned(i)` was the value of position `i` at some moment of the call. -/
theorem C14_some (hm : InitMem m l) (h : Exec m l n κ) {c : Cid} {i : Nat} {v : α}
    (hr : (κ n).Returned c (.getCloned i) (.optVal (some v))) :
    ∃ t, (κ n).During c t ∧ (κ t).content i = some v := by
  have hI := h.inv hm (Nat.le_refl n)
  obtain ⟨ct, st, et, fin, hc⟩ := hr
  obtain ⟨d, hinfo⟩ := hI.returned hc
  rcases hinfo.out with ⟨v', hx, rfl⟩ | ⟨hx, -⟩
  · simp only [Ret.optVal.injEq, Option.some.injEq] at hx
    subst hx
    obtain ⟨t, k1, -, -, k4, k5, -⟩ := h.data_time hm (d1 := []) (d2 := []) hinfo.data
    exact ⟨t, k4, by rw [(h.inv hm (by omega : t ≤ n)).content_eq]; exact k5⟩
  · simp at hx

/-- **C14.** If `get_cloned(i)` returned `None`, position `i` was not initialised at some moment of the call
(its invocation). -/
theorem C14_none (hm : InitMem m l) (h : Exec m l n κ) {c : Cid} {i : Nat}
    (hr : (κ n).Returned c (.getCloned i) (.optVal none)) :
    ∃ t, (κ n).During c t ∧ (κ t).content i = none := by
  have hI := h.inv hm (Nat.le_refl n)
  obtain ⟨ct, st, et, fin, hc⟩ := hr
  obtain ⟨d, hinfo⟩ := hI.returned hc
  rcases hinfo.out with ⟨v', hx, rfl⟩ | ⟨-, -, hnone⟩
  · simp at hx
  · obtain ⟨e1, e2, e3, e4, -⟩ := h.ends hm hc (et := et) (fin := fin) rfl
    simp only at e1 e3
    refine ⟨ct, ⟨⟨ct, ⟨_, hc, rfl⟩, Nat.le_refl _⟩, ?_⟩, ?_⟩
    · rintro t1 ⟨r, w, h1, h2⟩
      rw [hc] at h1
      simp only [Option.some.injEq] at h1
      subst h1
      simp only [Status.ended, Option.some.injEq, Prod.mk.injEq] at h2
      omega
    · rw [(h.inv hm (by omega : ct ≤ n)).content_eq, ← e3]; exact hnone

/-! ## C15 -/

/-- After a write, an operation on a single element does nothing more. -/
theorem Op.OnElement.last {op : Op α β} {i : Nat} (ho : op.OnElement i) {d : List (Ev α)} {e e' : Ev α}
    (hm : e.Modifies i) (h1 : op.Allows d e) (h2 : op.Allows (d ++ [e]) e') : False := by
  cases op <;> simp only [Op.OnElement] at ho <;> cases e <;> simp only [Op.Allows, Ev.Modifies] at h1 hm <;>
    cases e' <;> simp only [Op.Allows] at h2 <;> grind

/-- **C15.** Operations on a single position are linearizable: there is, for every call on position `i` that
returned, a moment `lin c` during the call such that in one step at that moment the call takes its whole effect on
the content and determines its result (`Op.Atomic`). Distinct calls have distinct moments, a panicking `update`
takes effect in the same way, and apart from the initialisation by growth calls and from `swap`/`fill`, the content
changes only at these moments: hence every call observes the value left by the previous one. -/
theorem C15_linearizable (hm : InitMem m l) (h : Exec m l n κ) (i : Nat) :
    ∃ lin : Cid → Nat,
      (∀ c op x, (κ n).Returned c op x → op.OnElement i → x ≠ .optVal none →
        (κ n).During c (lin c) ∧ ∃ old new, (κ (lin c)).content i = some old ∧
          (κ (lin c + 1)).content i = some new ∧ op.Atomic i old new x) ∧
      (∀ c f k, (κ n).Panicked c (.elUpdate f i) k →
        (κ n).During c (lin c) ∧ ∃ old, (κ (lin c)).content i = some old ∧
          (κ (lin c + 1)).content i = some (f old).1 ∧ (f old).2 = false) ∧
      (∀ c1 c2 op1 op2 x1 x2, (κ n).Returned c1 op1 x1 → op1.OnElement i → x1 ≠ .optVal none →
        (κ n).Returned c2 op2 x2 → op2.OnElement i → x2 ≠ .optVal none → lin c1 = lin c2 → c1 = c2) ∧
      (∀ t, t < n → (κ t).content i ≠ (κ (t + 1)).content i → ∃ c op, (κ n).Called c op ∧ (κ n).During c t ∧
        ((op.size ≠ none ∧ (κ t).content i = none) ∨ (op.OnElement i ∧ lin c = t) ∨
         (op.MayWrite i ∧ ¬ op.OnElement i))) := by
  have hI := h.inv hm (Nat.le_refl n)
  have hex : ∀ c : Cid, ∃ t, ∀ d e, dataOf c (κ n).w.trace = d ++ [e] →
      t < n ∧ dataOf c (κ t).w.trace = d ∧ Happens κ t e ∧ (κ n).During c t ∧ specOk (κ t).w.spec e ∧
      (κ (t + 1)).w.spec = specNext (κ t).w.spec e ∧ (∀ j, (κ t).content j = (κ t).w.spec.val j) ∧
      (∀ j, (κ (t + 1)).content j = (κ (t + 1)).w.spec.val j) ∧ e.cid = c := by
    intro c
    by_cases hde : ∃ d e, dataOf c (κ n).w.trace = d ++ [e]
    · obtain ⟨d, e, hde⟩ := hde
      obtain ⟨t, k⟩ := h.data_time hm hde
      refine ⟨t, fun d' e' hde' => ?_⟩
      rw [hde] at hde'
      obtain ⟨rfl, he⟩ := List.append_inj' hde' rfl
      simp only [List.cons.injEq, and_true] at he
      subst he
      have : e ∈ dataOf c (κ n).w.trace := by rw [hde]; simp
      exact ⟨k.1, k.2.1, k.2.2.1, k.2.2.2.1, k.2.2.2.2.1, k.2.2.2.2.2,
        fun j => (h.inv hm (by omega : t ≤ n)).content_eq j,
        fun j => (h.inv hm (by omega : t + 1 ≤ n)).content_eq j, (mem_dataOf.1 this).2.2⟩
    · exact ⟨0, fun d e hd => absurd ⟨d, e, hd⟩ hde⟩
  choose lin hlin using hex
  have hone : ∀ c op x, (κ n).Returned c op x → op.OnElement i → x ≠ .optVal none →
      ∃ d e, dataOf c (κ n).w.trace = d ++ [e] ∧ ∀ σ, specOk σ e → ∃ old new, σ.val i = some old ∧
        (specNext σ e).val i = some new ∧ op.Atomic i old new x := by
    rintro c op x ⟨ct, st, et, fin, hc⟩ ho hx
    obtain ⟨d, hinfo⟩ := hI.returned hc
    have hout := hinfo.out
    cases op <;> simp only [Op.OnElement] at ho
    case getCloned e =>
      subst ho
      rcases hout with ⟨v, rfl, hd⟩ | ⟨rfl, -⟩
      · exact ⟨[], _, hinfo.data.trans hd, fun σ hok => ⟨v, v, hok, hok, rfl, rfl, rfl⟩⟩
      · exact absurd rfl hx
    case elCloned e =>
      subst ho
      obtain ⟨v, rfl, hd⟩ := hout
      exact ⟨[], _, hinfo.data.trans hd, fun σ hok => ⟨v, v, hok, hok, rfl, rfl, rfl⟩⟩
    case elMap f e =>
      subst ho
      obtain ⟨v, b, rfl, hf, hd⟩ := hout
      exact ⟨[], _, hinfo.data.trans hd, fun σ hok => ⟨v, v, hok, hok, rfl, rfl, b, hf, rfl⟩⟩
    case elReplace e v =>
      subst ho
      obtain ⟨old, rfl, hd⟩ := hout
      exact ⟨[_], _, hinfo.data.trans hd, fun σ hok => ⟨old, v, hok, by simp [specNext], rfl, rfl, rfl⟩⟩
    case elSet e v =>
      subst ho
      obtain ⟨old, rfl, hd⟩ := hout
      exact ⟨[], _, hinfo.data.trans hd, fun σ hok => ⟨old, v, hok, by simp [specNext], rfl, rfl, rfl⟩⟩
    case elUpdate f e =>
      subst ho
      obtain ⟨old, rfl, hf, hd⟩ := hout
      exact ⟨[_], _, hinfo.data.trans hd,
        fun σ hok => ⟨old, (f old).1, hok, by simp [specNext], rfl, by rw [← hf], rfl⟩⟩
    case elEq veq v e =>
      subst ho
      obtain ⟨old, rfl, hd⟩ := hout
      exact ⟨[], _, hinfo.data.trans hd, fun σ hok => ⟨old, old, hok, hok, rfl, rfl, rfl⟩⟩
    case slGetCloned s e =>
      subst ho
      rcases hout with ⟨-, v, rfl, hd⟩ | ⟨-, rfl, -⟩
      · exact ⟨[], _, hinfo.data.trans hd, fun σ hok => ⟨v, v, hok, hok, rfl, rfl, rfl⟩⟩
      · exact absurd rfl hx
  refine ⟨lin, ?_, ?_, ?_, ?_⟩
  · intro c op x hr ho hx
    obtain ⟨d, e, hde, hat⟩ := hone c op x hr ho hx
    obtain ⟨k1, k2, k3, k4, k5, k6, k7, k8, k9⟩ := hlin c d e hde
    obtain ⟨old, new, h1, h2, h3⟩ := hat _ k5
    exact ⟨k4, old, new, by rw [k7, h1], by rw [k8, k6, h2], h3⟩
  · rintro c f k ⟨ct, st, et, fin, hc⟩
    obtain ⟨U, d, hinfo⟩ := hI.panicked hc
    obtain ⟨-, -, old, hf, hd⟩ := hinfo.out
    obtain ⟨k1, k2, k3, k4, k5, k6, k7, k8, k9⟩ := hlin c [_] _ (by rw [hinfo.data, hd]; rfl)
    exact ⟨k4, old, by rw [k7]; exact k5, by rw [k8, k6]; simp [specNext], hf⟩
  · intro c1 c2 op1 op2 x1 x2 hr1 ho1 hx1 hr2 ho2 hx2 heq
    obtain ⟨d, e, hde, -⟩ := hone c1 op1 x1 hr1 ho1 hx1
    obtain ⟨d', e', hde', -⟩ := hone c2 op2 x2 hr2 ho2 hx2
    obtain ⟨-, -, k3, -, -, -, -, -, k9⟩ := hlin c1 d e hde
    obtain ⟨-, -, q3, -, -, -, -, -, q9⟩ := hlin c2 d' e' hde'
    rw [heq] at k3
    rw [← k9, ← q9, k3.unique q3]
  · intro t ht hne
    obtain ⟨e, d1, d2, k1, k2, k3, k4, k5, k6, k7, k8⟩ := h.change hm ht hne
    have hmem : e ∈ (κ n).w.trace := (mem_dataOf.1 (by rw [k3]; simp : e ∈ dataOf e.cid (κ n).w.trace)).1
    obtain ⟨t1, t2, hsplit⟩ := List.append_of_mem hmem
    obtain ⟨⟨op, ct, st, s⟩, hr, -⟩ := hI.events t1 e t2 hsplit
    have hall : op.Allows d1 e := hI.hist hr k3
    refine ⟨e.cid, op, ⟨ct, st, s, hr⟩, k2, ?_⟩
    rcases k8 with hmod | ⟨c, v, rfl⟩
    · obtain ⟨r', hr', hmw⟩ := hI.modifies hmem hmod
      rw [hr] at hr'
      simp only [Option.some.injEq] at hr'
      subst hr'
      right
      by_cases ho : op.OnElement i
      · left
        refine ⟨ho, ?_⟩
        have hd2 : d2 = [] := by
          rcases d2 with _ | ⟨e', d2⟩
          · rfl
          · exfalso
            exact ho.last hmod hall (hI.hist hr (d1 := d1 ++ [e]) (e := e') (d2 := d2) (by rw [k3]; simp))
        subst hd2
        obtain ⟨q1, q2, q3, -⟩ := hlin e.cid d1 e k3
        have grow : ∀ s, dataOf e.cid (κ s).w.trace = d1 → Happens κ s e →
            dataOf e.cid (κ (s + 1)).w.trace = d1 ++ [e] := by
          intro s hd hh
          rw [hh, dataOf_append, hd, dataOf_cons_data (e := e) (c := e.cid) k5 rfl]; rfl
        have mono : ∀ s s', s + 1 ≤ s' → s' ≤ n → dataOf e.cid (κ s).w.trace = d1 → Happens κ s e →
            dataOf e.cid (κ s').w.trace = d1 → False := by
          intro s s' hss hs' hd hh hd'
          obtain ⟨u, hu⟩ := (h.evolves hm hss hs').trace
          rw [← hu, dataOf_append, grow s hd hh] at hd'
          have := congrArg List.length hd'
          simp at this
        rcases Nat.lt_trichotomy (lin e.cid) t with hlt | heq | hgt
        · exact (mono _ _ hlt (by omega) q2 q3 k4).elim
        · exact heq
        · exact (mono _ _ hgt (by omega) k4 k1 q2).elim
      · exact .inr ⟨hmw, ho⟩
    · left
      refine ⟨?_, ?_⟩
      · cases op <;> simp only [Op.Allows] at hall <;> simp [Op.size]
      · rw [(h.inv hm (by omega : t ≤ n)).content_eq]; exact k6.2.2

/-! ## C16 -/

/-- **C16.** Updates are never lost: if position `i` has value `v0` when nobody has written to it yet, and all calls
that may write to it are the returned `update(f)` calls `cs`, then its value is `f` applied `cs.length` times
to `v0`. -/
theorem C16_no_lost_update (hm : InitMem m l) (h : Exec m l n κ) {s : Nat} (hs : s ≤ n) {i : Nat} {v0 : α}
    (hv : (κ s).content i = some v0) (h0 : ∀ c op, (κ s).Called c op → ¬ op.MayWrite i)
    {f : α → α} {cs : List Cid} (hnd : cs.Nodup)
    (hret : ∀ c ∈ cs, (κ n).Returned c (.elUpdate (fun v => (f v, true)) i) .unit)
    (hall : ∀ c op, (κ n).Called c op → op.MayWrite i → c ∈ cs) :
    (κ n).content i = some (f^[cs.length] v0) := by
  have hI := h.inv hm (Nat.le_refl n)
  have hdat : ∀ c, ∃ old, c ∈ cs → dataOf c (κ n).w.trace = [.read c i old, .write c i old (f old)] := by
    intro c
    by_cases hc : c ∈ cs
    · obtain ⟨ct, st, et, fin, hr⟩ := hret c hc
      obtain ⟨d, hinfo⟩ := hI.returned hr
      obtain ⟨old, -, -, hd⟩ := hinfo.out
      exact ⟨old, fun _ => by rw [hinfo.data, hd]⟩
    · exact ⟨v0, fun h => absurd h hc⟩
  choose old hold using hdat
  have hns : ∀ c j k, Ev.swap c j k ∈ (κ n).w.trace → i ≠ j ∧ i ≠ k := by
    intro c j k hk
    by_contra hcon
    have hmod : (Ev.swap c j k : Ev α).Modifies i := by
      simp only [Ev.Modifies]; grind
    obtain ⟨⟨op, ct, st, ss⟩, hr, hmw⟩ := hI.modifies hk hmod
    have hcs := hall c op ⟨ct, st, ss, hr⟩ hmw
    have : Ev.swap c j k ∈ dataOf c (κ n).w.trace := mem_dataOf.2 ⟨hk, rfl, rfl⟩
    rw [hold c hcs] at this
    simp at this
  obtain ⟨v, ws, h1, h2, h3⟩ := h.writes_perm hm hs hv h0 (ws := cs.map fun c => (c, f (old c), old c))
    (by rw [List.map_map]; simpa [Function.comp_def] using hnd)
    (by
      intro w hw
      rw [List.mem_map] at hw
      obtain ⟨c, hc, rfl⟩ := hw
      rw [hold c hc]
      simp [List.filterMap_cons])
    (by
      intro c op hc hmw
      have := hall c op hc hmw
      simpa using this)
    hns
  rw [h1, h2.iterate (g := f), h3.length_eq, List.length_map]
  intro w hw
  have := h3.subset hw
  rw [List.mem_map] at this
  obtain ⟨c, -, rfl⟩ := this
  rfl

/-! ## C17 -/

/-- **C17.** `replace` hands out every value exactly once: if position `i` has value `v0` when nobody has written to
it yet, and all calls that may write to it are the returned `replace` calls `cs` (call, argument, result), then
`v0` together with the arguments is, as a multiset, the final value together with the results. -/
theorem C17_replace_conserves (hm : InitMem m l) (h : Exec m l n κ) {s : Nat} (hs : s ≤ n) {i : Nat} {v0 : α}
    (hv : (κ s).content i = some v0) (h0 : ∀ c op, (κ s).Called c op → ¬ op.MayWrite i)
    {cs : List (Cid × α × α)} (hnd : (cs.map fun p => p.1).Nodup)
    (hret : ∀ p ∈ cs, (κ n).Returned p.1 (.elReplace i p.2.1) (.val p.2.2))
    (hall : ∀ c op, (κ n).Called c op → op.MayWrite i → c ∈ cs.map fun p => p.1) :
    ∃ v, (κ n).content i = some v ∧
      (v0 :: cs.map fun p => p.2.1).Perm (v :: cs.map fun p => p.2.2) := by
  have hI := h.inv hm (Nat.le_refl n)
  have hdat : ∀ p ∈ cs, dataOf p.1 (κ n).w.trace = [.read p.1 i p.2.2, .write p.1 i p.2.2 p.2.1] := by
    intro p hp
    obtain ⟨ct, st, et, fin, hr⟩ := hret p hp
    obtain ⟨d, hinfo⟩ := hI.returned hr
    obtain ⟨old, hx, hd⟩ := hinfo.out
    simp only [Ret.val.injEq] at hx
    rw [hinfo.data, hd, hx]
  have hns : ∀ c j k, Ev.swap c j k ∈ (κ n).w.trace → i ≠ j ∧ i ≠ k := by
    intro c j k hk
    by_contra hcon
    have hmod : (Ev.swap c j k : Ev α).Modifies i := by
      simp only [Ev.Modifies]; grind
    obtain ⟨⟨op, ct, st, ss⟩, hr, hmw⟩ := hI.modifies hk hmod
    have hcs := hall c op ⟨ct, st, ss, hr⟩ hmw
    rw [List.mem_map] at hcs
    obtain ⟨p, hp, hpc⟩ := hcs
    have : Ev.swap c j k ∈ dataOf c (κ n).w.trace := mem_dataOf.2 ⟨hk, rfl, rfl⟩
    rw [← hpc, hdat p hp] at this
    simp at this
  obtain ⟨v, ws, h1, h2, h3⟩ := h.writes_perm hm hs hv h0 (ws := cs) hnd
    (by
      intro w hw
      rw [hdat w hw]
      simp [List.filterMap_cons])
    hall hns
  refine ⟨v, h1, ?_⟩
  have hp := h2.perm
  exact ((h3.map _).symm.cons _).trans (hp.trans ((h3.map _).cons _))

section examples
open Demo

/-- `get_cloned(1)` and `get_cloned(3)` during a `replace` of element 1. -/
def Demo.reads : List (Choice Nat Nat) :=
  [.call .iter] ++ go 1 5 ++ [.call (.elReplace 1 5), .call (.getCloned 1), .call (.getCloned 3)] ++
  go 2 2 ++ go 3 5 ++ go 4 3 ++ go 2 3 ++ go 3 4

example : let κ := after [10, 20] 2 8 Demo.reads
    Possible [10, 20] 2 8 Demo.reads ∧ κ.Returned 3 (.getCloned 1) (.optVal (some 5)) ∧
    κ.Returned 4 (.getCloned 3) (.optVal none) ∧ κ.Returned 2 (.elReplace 1 5) (.val 20) ∧
    (Op.getCloned 1 : Op Nat Nat).OnElement 1 :=
  ⟨by unfold Possible; rfl, returned_of rfl rfl, returned_of rfl rfl, returned_of rfl rfl, rfl⟩

/-- Two concurrent increments of element 1. -/
def Demo.incr : List (Choice Nat Nat) :=
  [.call .iter] ++ go 1 5 ++ [.call (.elUpdate (fun v => (v + 1, true)) 1), .call (.elUpdate (fun v => (v + 1, true)) 1)] ++
  go 2 1 ++ go 3 3 ++ go 2 4 ++ go 3 5

example : let κ := after [10, 20] 2 8 incr
    Possible [10, 20] 2 8 incr ∧ κ.result 2 = some .unit ∧ κ.result 3 = some .unit ∧ κ.content 1 = some 22 :=
  ⟨by unfold Possible; rfl, rfl, rfl, rfl⟩

end examples

end Verif
