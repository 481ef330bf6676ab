import Verif.Weak.Values
import Verif.Props.Weak
import Verif.Props.DemoValues
import Verif.Props.Swap
import Verif.Proof.Views

/-!
# Values under weak memory: C46, C47, C48

Theorems about all executions of the weak memory model (`Weak/Model.lean`).
-/

namespace Verif

variable {α β : Type} {m : Mem α} {l : List α} {κ : Weak.Cfg α β}

theorem Weak.tinv_of (hm : InitMem m l) (h : Weak.Reach m κ) (hd : κ.Disciplined) :
    ∃ K K0 S t, Weak.WInv (Weak.modeOf κ False) m.maxCap l.length κ K K0 ∧ Weak.TInv l κ K K0 S t :=
  Weak.tinv hm h fun c op hc => ⟨fun i ⟨c', hc'⟩ => hd c' i hc' c op hc, fun _ he => ⟨c, he ▸ hc⟩, fun h => h.elim, fun _ _ _ => trivial⟩

theorem reads_mem {c : Cid} {a : Nat} {vs : List α} {j : Nat} {v : α} (h : vs[j]? = some v) : Ev.read c (a + j) v ∈ reads c a vs := by
  obtain ⟨d1, d2, hd⟩ := reads_split (c := c) (a := a) h
  rw [hd]; simp

open Weak

/-! ## C46 -/

/-- **C46.** Whatever stale values the loads of the counters, the capacity and the state bytes return: there is one sequential
order of all accesses to the elements, compatible with happens-before, in which every access finds the value left by the latest one
before it, and which explains the results of all calls. -/
theorem C46_explained (hm : InitMem m l) (h : Weak.Reach m κ) (hd : κ.Disciplined) : ∃ t, κ.ExplainedBy l t := by
  obtain ⟨K, K0, S, t, hw, hT⟩ := tinv_of hm h hd
  exact ⟨t, hT.explained hw⟩

/-- The accesses of call 4 of `Show.ω`, which clones `[20, 30, 10, 40]`. -/
example : ∃ t, Show.ω.ExplainedBy [10, 20, 30] t ∧
    dataOf 4 t = [.read 4 0 20, .read 4 1 30, .read 4 2 10, .read 4 3 40] := by
  obtain ⟨t, E⟩ := C46_explained Show.ω_init Show.ω_reach Show.ω_disciplined
  refine ⟨t, E, ?_⟩
  obtain ⟨vs, -, hx, hd⟩ := E.returned 4 .iterCloned (.vals [20, 30, 10, 40]) _ (Cfg.returned_of rfl rfl) (.inl rfl)
  injection hx with hx
  subst hx
  exact hd

/-! ## C47 -/

/-- **C47.** Operations on single elements, swaps and `push` are linearizable under weak memory: there are contents of the vector
`s 0, s 1, …, s N` and one moment per call at which the call takes its whole effect and determines its result; the moments
respect happens-before. -/
theorem C47_linearizable (hm : InitMem m l) (h : Weak.Reach m κ) (hd : κ.Disciplined) :
    ∃ N s lin, κ.Linearized l N s lin := by
  obtain ⟨K, K0, S, t, hw, hT⟩ := tinv_of hm h hd
  obtain ⟨lin, hl⟩ := hT.linearized hw
  exact ⟨_, _, lin, hl⟩

/-- The two concurrent `replace` of `Show.ν` return `10` and `99`: the one that found `99` came second. -/
example : ∃ N s lin, Show.ν.Linearized [10, 20] N s lin ∧ s (lin 4) 0 = some 10 ∧ s (lin 5) 0 = some 99 := by
  obtain ⟨N, s, lin, hl⟩ := C47_linearizable Show.init Show.ν_reach Show.ν_disciplined
  refine ⟨N, s, lin, hl, ?_, ?_⟩
  · obtain ⟨-, old, new, h1, -, -, -, h3⟩ := hl.element 4 (.elReplace 0 99) (.val 10) 0 (Cfg.returned_of rfl rfl) rfl (by simp)
    injection h3 with h3
    rw [h1, h3]
  · obtain ⟨-, old, new, h1, -, -, -, h3⟩ := hl.element 5 (.elReplace 0 77) (.val 99) 0 (Cfg.returned_of rfl rfl) rfl (by simp)
    injection h3 with h3
    rw [h1, h3]

/-- **C47.** An element that nobody writes to has for everybody the value it was created with. -/
theorem C47_unwritten (hm : InitMem m l) (h : Weak.Reach m κ) (hd : κ.Disciplined) {i : Nat} {v : α} (hb : κ.Born l i v)
    (hall : κ.Only fun op => ¬ op.MayWrite i) :
    (∀ d u, κ.Returned d (.getCloned i) (.optVal (some u)) → u = v) ∧
    (∀ d u, κ.Returned d (.elCloned i) (.val u) → u = v) ∧
    (∀ d u, κ.Returned d (.deref i) (.val u) → u = v) ∧
    (∀ d us, κ.Returned d .iterCloned (.vals us) ∨ κ.Returned d .cloneToVec (.vals us) → i < us.length → us[i]? = some v) := by
  obtain ⟨t, E⟩ := C46_explained hm h hd
  have key : ∀ d u, Ev.read d i u ∈ dataOf d t → u = v := fun d u he =>
    explained_read_first E (mem_dataOf.1 he).1 hb hall
  refine ⟨fun d u hr => ?_, fun d u hr => ?_, fun d u hr => ?_, fun d us hr hi => ?_⟩
  · rcases E.returned d _ _ _ hr (.inl rfl) with ⟨w, hx, hdat⟩ | ⟨hx, -⟩
    · injection hx with hx
      injection hx with hx
      subst hx
      exact key d u (by rw [hdat]; simp)
    · cases hx
  · obtain ⟨w, hx, hdat⟩ := E.returned d _ _ _ hr (.inl rfl)
    injection hx with hx
    subst hx
    exact key d u (by rw [hdat]; simp)
  · obtain ⟨w, hx, hdat⟩ := E.returned d _ _ _ hr (.inl rfl)
    injection hx with hx
    subst hx
    exact key d u (by rw [hdat]; simp)
  · have hex : dataOf d t = reads d 0 us := by
      rcases hr with hr | hr
      · obtain ⟨vs, -, hx, hdat⟩ := E.returned d _ _ _ hr (.inl rfl)
        injection hx with hx; subst hx; exact hdat
      · obtain ⟨vs, -, hx, hdat⟩ := E.returned d _ _ _ hr (.inl rfl)
        injection hx with hx; subst hx; exact hdat
    rw [List.getElem?_eq_getElem hi]
    congr 1
    refine key d _ ?_
    rw [hex]
    have := reads_mem (c := d) (a := 0) (List.getElem?_eq_getElem hi)
    rwa [Nat.zero_add] at this

example : Show.κ.Born [10, 20] 5 7 ∧ (Show.κ.Only fun op => ¬ op.MayWrite 5) ∧
    Show.κ.Returned 7 (.getCloned 5) (.optVal (some 7)) :=
  ⟨.inr ⟨1, .push 7, 5, [7], Cfg.returned_of rfl rfl, rfl, Nat.le_refl _, rfl⟩, by
    refine Show.only_of Show.reach fun op hop => ?_
    rw [Show.ops_eq] at hop
    simp only [List.mem_cons, List.not_mem_nil, or_false] at hop
    rcases hop with h | h | h | h | h | h | h | h | h <;> subst h <;> exact id, Cfg.returned_of rfl rfl⟩

/-- **C47.** A value that was pushed is what a `get_cloned` which happens after the `push` returns, unless somebody writes to the
element; it never returns `None`. -/
theorem C47_push_then_get (hm : InitMem m l) (h : Weak.Reach m κ) (hd : κ.Disciplined) {c d : Cid} {i : Nat} {v : α} {x : Ret α β}
    (hp : κ.Returned c (.push v) (.nat i)) (hb : κ.HB c d) (hg : κ.Returned d (.getCloned i) x)
    (hall : κ.Only fun op => ¬ op.MayWrite i) : x = .optVal (some v) := by
  obtain ⟨u, rfl⟩ := C41_cloned_after_growth hm h hd
    (.inr ⟨c, ⟨.push v, 1, i, hp, rfl, Nat.le_refl _, Nat.lt_succ_self _⟩, hb⟩) hg
  rw [(C47_unwritten hm h hd (v := v) (.inr ⟨c, .push v, i, [v], hp, rfl, Nat.le_refl _, by simp⟩) hall).1 d u hg]

example : Show.κ.Returned 1 (.push 7) (.nat 5) ∧ Show.κ.HB 1 7 ∧ Show.κ.Returned 7 (.getCloned 5) (.optVal (some 7)) :=
  ⟨Cfg.returned_of rfl rfl, Cfg.hb_of (H := [1]) rfl (by decide), Cfg.returned_of rfl rfl⟩

/-! ## C48 -/

/-- **C48.** Updates are never lost: if all calls that may write to position `i` are the returned `update(f)` calls `cs`, then its
value is `f` applied `cs.length` times to its first value, and this is what a reader that happens after them returns. -/
theorem C48_no_lost_update (hm : InitMem m l) (h : Weak.Reach m κ) (hd : κ.Disciplined) {i : Nat} {v0 : α} (hb : κ.Born l i v0)
    {f : α → α} {cs : List Cid} (hnd : cs.Nodup)
    (hret : ∀ c ∈ cs, κ.Returned c (.elUpdate (fun v => (f v, true)) i) .unit)
    (hall : ∀ c op, κ.Called c op → op.MayWrite i → c ∈ cs) :
    κ.mem.val i = some (f^[cs.length] v0) ∧
    ∀ d, (∀ c ∈ cs, κ.HB c d) → (∀ u, κ.Returned d (.getCloned i) (.optVal (some u)) → u = f^[cs.length] v0) ∧
      ∀ u, κ.Returned d (.elCloned i) (.val u) → u = f^[cs.length] v0 := by
  obtain ⟨t, E⟩ := C46_explained hm h hd
  have hdat : ∀ c, ∃ old, c ∈ cs → dataOf c t = [.read c i old, .write c i old (f old)] := by
    intro c
    by_cases hc : c ∈ cs
    · obtain ⟨old, -, -, hd⟩ := E.returned c _ _ _ (hret c hc) (.inl rfl)
      exact ⟨old, fun _ => hd⟩
    · exact ⟨v0, fun h => absurd h hc⟩
  choose old hold using hdat
  have hns : ∀ c j k, Ev.swap c j k ∈ t → i ≠ j ∧ i ≠ k := by
    intro c j k hk
    by_contra hcon
    have hmod : (Ev.swap c j k : Ev α).Modifies i := by
      simp only [Ev.Modifies]; grind
    obtain ⟨op, ho, hmw⟩ := E.changed _ hk
    have hcs := hall c op ho (hmw i hmod)
    have : Ev.swap c j k ∈ dataOf c t := mem_dataOf.2 ⟨hk, rfl, rfl⟩
    rw [hold c hcs] at this
    simp at this
  obtain ⟨v, ws, h1, h2, h3⟩ := explained_writes E hb (ws := cs.map fun c => (c, f (old c), old c))
    (by rw [List.map_map]; simpa [Function.comp_def] using hnd)
    (by
      intro w hw
      rw [List.mem_map] at hw
      obtain ⟨c, hc, rfl⟩ := hw
      rw [hold c hc]
      simp [List.filterMap_cons])
    (by
      intro c op hc hmw
      have := hall c op hc hmw
      simpa using this)
    hns
  have hfin : κ.mem.val i = some (f^[cs.length] v0) := by
    rw [h1, h2.iterate (g := f), h3.length_eq, List.length_map]
    intro w hw
    have := h3.subset hw
    rw [List.mem_map] at this
    obtain ⟨c, -, rfl⟩ := this
    rfl
  refine ⟨hfin, fun d hafter => ⟨fun u hr => ?_, fun u hr => ?_⟩⟩
  · rcases E.returned d _ _ _ hr (.inl rfl) with ⟨w, hx, hdat⟩ | ⟨hx, -⟩
    · injection hx with hx
      injection hx with hx
      subst hx
      have := explained_read_last E (d := d) (i := i) (v := u) (by rw [hdat]; simp)
        (fun c op hc hmw => hafter c (hall c op hc hmw))
      rw [hfin] at this
      exact (Option.some.inj this).symm
    · cases hx
  · obtain ⟨w, hx, hdat⟩ := E.returned d _ _ _ hr (.inl rfl)
    injection hx with hx
    subst hx
    have := explained_read_last E (d := d) (i := i) (v := u) (by rw [hdat]; simp)
      (fun c op hc hmw => hafter c (hall c op hc hmw))
    rw [hfin] at this
    exact (Option.some.inj this).symm

/-- Two concurrent increments of 20, and a reader. -/
example : Show.ν.mem.val 1 = some 22 ∧ Show.ν.Returned 7 (.getCloned 1) (.optVal (some 22)) ∧ Show.ν.HB 2 7 ∧ Show.ν.HB 3 7 := by
  have h := C48_no_lost_update Show.init Show.ν_reach Show.ν_disciplined (i := 1) (v0 := 20) (.inl rfl) (f := fun v => v + 1)
    (cs := [2, 3]) (by decide)
    (by
      intro c hc
      simp only [List.mem_cons, List.not_mem_nil, or_false] at hc
      rcases hc with rfl | rfl
      · exact Cfg.returned_of rfl rfl
      · exact Cfg.returned_of rfl rfl)
    (by
      intro c op hc hw
      obtain ⟨h1, h2⟩ := Show.called_of Show.ν_reach (k := 10) rfl hc
      match c, h1, h2 with
      | 0, _, h2 => cases h2
      | 1, _, h2 => cases h2; exact hw.elim
      | 2, _, h2 => decide
      | 3, _, h2 => decide
      | 4, _, h2 => cases h2; cases hw
      | 5, _, h2 => cases h2; cases hw
      | 6, _, h2 => cases h2; exact hw.elim
      | 7, _, h2 => cases h2; exact hw.elim
      | 8, _, h2 => cases h2; exact hw.elim
      | 9, _, h2 => cases h2; exact hw.elim)
  exact ⟨h.1, Cfg.returned_of rfl rfl, Cfg.hb_of (H := [2, 3]) rfl (by decide), Cfg.hb_of (H := [2, 3]) rfl (by decide)⟩

/-- **C48.** `replace` hands out every value exactly once: if all calls that may write to position `i` are the returned `replace`
calls `cs` (call, argument, result), then the first value together with the arguments is, as a multiset, the final value together
with the results. The final value is what a reader that happens after them returns. -/
theorem C48_replace_conserves (hm : InitMem m l) (h : Weak.Reach m κ) (hd : κ.Disciplined) {i : Nat} {v0 : α} (hb : κ.Born l i v0)
    {cs : List (Cid × α × α)} (hnd : (cs.map fun p => p.1).Nodup)
    (hret : ∀ p ∈ cs, κ.Returned p.1 (.elReplace i p.2.1) (.val p.2.2))
    (hall : ∀ c op, κ.Called c op → op.MayWrite i → c ∈ cs.map fun p => p.1) :
    ∃ v, κ.mem.val i = some v ∧ (v0 :: cs.map fun p => p.2.1).Perm (v :: cs.map fun p => p.2.2) ∧
      ∀ d u, (∀ p ∈ cs, κ.HB p.1 d) → κ.Returned d (.getCloned i) (.optVal (some u)) ∨ κ.Returned d (.elCloned i) (.val u) →
        u = v := by
  obtain ⟨t, E⟩ := C46_explained hm h hd
  have hdat : ∀ p ∈ cs, dataOf p.1 t = [.read p.1 i p.2.2, .write p.1 i p.2.2 p.2.1] := by
    intro p hp
    obtain ⟨old, hx, hd⟩ := E.returned _ _ _ _ (hret p hp) (.inl rfl)
    simp only [Ret.val.injEq] at hx
    rw [hd, hx]
  have hns : ∀ c j k, Ev.swap c j k ∈ t → i ≠ j ∧ i ≠ k := by
    intro c j k hk
    by_contra hcon
    have hmod : (Ev.swap c j k : Ev α).Modifies i := by
      simp only [Ev.Modifies]; grind
    obtain ⟨op, ho, hmw⟩ := E.changed _ hk
    have hcs := hall c op ho (hmw i hmod)
    rw [List.mem_map] at hcs
    obtain ⟨p, hp, hpc⟩ := hcs
    have : Ev.swap c j k ∈ dataOf c t := mem_dataOf.2 ⟨hk, rfl, rfl⟩
    rw [← hpc, hdat p hp] at this
    simp at this
  obtain ⟨v, ws, h1, h2, h3⟩ := explained_writes E hb (ws := cs) hnd
    (by
      intro w hw
      rw [hdat w hw]
      simp [List.filterMap_cons])
    hall hns
  have hp := h2.perm
  have hlast : ∀ d u, (∀ p ∈ cs, κ.HB p.1 d) → Ev.read d i u ∈ dataOf d t → u = v := by
    intro d u hafter he
    have := explained_read_last E he (fun c op hc hmw => by
      have := hall c op hc hmw
      rw [List.mem_map] at this
      obtain ⟨p, hp, rfl⟩ := this
      exact hafter p hp)
    rw [h1] at this
    exact (Option.some.inj this).symm
  refine ⟨v, h1, ((h3.map _).symm.cons _).trans (hp.trans ((h3.map _).cons _)), fun d u hafter hr => ?_⟩
  rcases hr with hr | hr
  · rcases E.returned d _ _ _ hr (.inl rfl) with ⟨w, hx, hdat⟩ | ⟨hx, -⟩
    · injection hx with hx
      injection hx with hx
      subst hx
      exact hlast d u hafter (by rw [hdat]; simp)
    · cases hx
  · obtain ⟨w, hx, hdat⟩ := E.returned d _ _ _ hr (.inl rfl)
    injection hx with hx
    subst hx
    exact hlast d u hafter (by rw [hdat]; simp)

/-- 10 is replaced by 99, this by 77; a reader sees 77. -/
example : Show.ν.Returned 4 (.elReplace 0 99) (.val 10) ∧ Show.ν.Returned 5 (.elReplace 0 77) (.val 99) ∧
    Show.ν.Returned 8 (.getCloned 0) (.optVal (some 77)) ∧ Show.ν.HB 4 8 ∧ Show.ν.HB 5 8 ∧
    [10, 99, 77].Perm [77, 10, 99] :=
  ⟨Cfg.returned_of rfl rfl, Cfg.returned_of rfl rfl, Cfg.returned_of rfl rfl, Cfg.hb_of (H := [4, 5]) rfl (by decide),
    Cfg.hb_of (H := [4, 5]) rfl (by decide), by decide⟩

/-- **C48.** Swaps never create, lose or duplicate a value: if only swaps write to elements (any number of growth and read calls
are allowed), the values of the vector are a permutation of the first values of its elements. They are what a reader that happens
after all swaps sees. -/
theorem C48_swap_conserves (hm : InitMem m l) (h : Weak.Reach m κ) (hd : κ.Disciplined)
    (hsw : ∀ c op k, κ.Called c op → op.MayWrite k → ∃ i j, op.SwapOf i j) {vs fs : List α}
    (hv : ∀ k, κ.mem.val k = vs[k]?) (hlen : fs.length = vs.length) (hf : ∀ k v, fs[k]? = some v → κ.Born l k v) :
    fs.Perm vs ∧ ∀ d us, (∀ c op k, κ.Called c op → op.MayWrite k → κ.HB c d) → κ.Returned d .iterCloned (.vals us) → us <+: vs := by
  obtain ⟨t, E⟩ := C46_explained hm h hd
  obtain ⟨hleg, hval⟩ := explained_legal E
  have hval : ∀ k, (specAt (.ofList l) t).val k = vs[k]? := fun k => by rw [hval]; exact hv k
  refine ⟨?_, fun d us hafter hr => ?_⟩
  · by_cases hemp : vs.length = 0
    · rw [hemp] at hlen
      rw [List.eq_nil_of_length_eq_zero hemp, List.eq_nil_of_length_eq_zero hlen]
    obtain ⟨d, -⟩ : ∃ d : α, True := ⟨vs[0]'(by omega), trivial⟩
    let F : Nat → α := fun k => (fs[k]?).getD d
    have hFs : ∀ k, k < fs.length → fs[k]? = some (F k) := fun k hk => by
      simp only [F]; rw [List.getElem?_eq_getElem hk]; rfl
    have hin : ∀ k, ((specAt (.ofList l) t).val k).isSome → k < vs.length := by
      intro k hk
      rw [hval] at hk
      rcases Nat.lt_or_ge k vs.length with h1 | h1
      · exact h1
      · rw [List.getElem?_eq_none h1] at hk; cases hk
    have hfirst : ∀ c i v, Ev.publish c i v ∈ t → v = F i := by
      intro c i v he
      have hik := hin i (hleg.publish_pub he)
      have hborn := hf i (F i) (hFs i (by omega))
      rcases hborn with h0 | ⟨c', op, b, us, hr, hs, hbi, hx⟩
      · exfalso
        obtain ⟨t1, t2, ht⟩ := List.append_of_mem he
        have hok := hleg t1 _ t2 ht
        have : ((specAt (.ofList l) t1).val i).isSome :=
          specAt_pub (by rw [ht] at hleg; exact hleg.prefix) (by show (l[i]?).isSome; rw [h0]; rfl)
        rw [hok.2.2] at this; cases this
      · have hd := explains_growth (E.returned c' op _ _ hr (.inl rfl)) hs
        have hm' : Ev.publish c' (b + (i - b)) (F i) ∈ dataOf c' t := by rw [hd]; exact List.mem_cons_of_mem _ (mem_pubs hx)
        rw [Nat.add_sub_cancel' hbi] at hm'
        by_cases heq : (Ev.publish c i v : Ev α) = .publish c' i (F i)
        · injection heq
        · rcases split_two he (mem_dataOf.1 hm').1 heq with ⟨t1, t2, t3, ht⟩ | ⟨t1, t2, t3, ht⟩
          · rw [ht] at hleg; exact hleg.publish_once.elim
          · rw [ht] at hleg; exact hleg.publish_once.elim
    have hnw : ∀ c i o v, Ev.write c i o v ∉ t := by
      intro c i o v he
      obtain ⟨op, hc, hmw⟩ := E.changed _ he
      have hmw := hmw i rfl
      obtain ⟨a, b, hab⟩ := hsw c op i hc hmw
      have he : Ev.write c i o v ∈ dataOf c t := mem_dataOf.2 ⟨he, rfl, rfl⟩
      rcases E.swapped c op a b hc hab with hd | hd
      · rw [hd] at he; cases he
      · rw [hd] at he; simp at he
    have hperm := hleg.swap_perm F vs.length hfirst hnw hin
    have hL : ((List.range vs.length).map fun i => ((SpecSt.ofList l).val i).getD (F i)) = fs := by
      apply List.ext_getElem?
      intro k
      rcases Nat.lt_or_ge k vs.length with hk | hk
      · rw [List.getElem?_map, List.getElem?_range hk, hFs k (by omega)]
        simp only [Option.map_some, Option.some.injEq]
        rcases h0 : (SpecSt.ofList l).val k with _ | v
        · rfl
        · simp only [Option.getD_some]
          rcases hf k (F k) (hFs k (by omega)) with hf0 | ⟨c', op, b, us, hr, hs, hbi, hx⟩
          · have h0 : l[k]? = some v := h0
            rw [h0] at hf0; exact Option.some.inj hf0
          · exfalso
            have hd := explains_growth (E.returned c' op _ _ hr (.inl rfl)) hs
            have hm' : Ev.publish c' (b + (k - b)) (F k) ∈ dataOf c' t := by rw [hd]; exact List.mem_cons_of_mem _ (mem_pubs hx)
            rw [Nat.add_sub_cancel' hbi] at hm'
            obtain ⟨t1, t2, ht⟩ := List.append_of_mem (mem_dataOf.1 hm').1
            have hok := hleg t1 _ t2 ht
            have : ((specAt (.ofList l) t1).val k).isSome :=
              specAt_pub (by rw [ht] at hleg; exact hleg.prefix) (by rw [h0]; rfl)
            rw [hok.2.2] at this; cases this
      · rw [List.getElem?_eq_none (by simpa using hk), List.getElem?_eq_none (by omega)]
    have hR : ((List.range vs.length).map fun i => ((specAt (.ofList l) t).val i).getD (F i)) = vs := by
      apply List.ext_getElem?
      intro k
      rcases Nat.lt_or_ge k vs.length with hk | hk
      · rw [List.getElem?_map, List.getElem?_range hk]
        simp only [Option.map_some]
        rw [hval, List.getElem?_eq_getElem hk]
        rfl
      · rw [List.getElem?_eq_none (by simpa using hk), List.getElem?_eq_none hk]
    rw [hL, hR] at hperm
    exact hperm
  · obtain ⟨us', -, hx, hdat⟩ := E.returned d _ _ _ hr (.inl rfl)
    injection hx with hx
    subst hx
    have hk : ∀ (k : Nat) (v : α), us[k]? = some v → vs[k]? = some v := by
      intro k v hk
      have hm' := reads_mem (c := d) (a := 0) hk
      rw [Nat.zero_add, ← hdat] at hm'
      rw [← hv]
      exact explained_read_last E hm' (fun c op hc hmw => hafter c op k hc hmw)
    rw [List.prefix_iff_getElem?]
    intro k hlt
    exact hk k _ (List.getElem?_eq_getElem hlt)

/-- `Show.ω`: two overlapping swaps and a push. -/
example : [10, 20, 30, 40].Perm [20, 30, 10, 40] ∧ [20, 30, 10, 40] <+: [20, 30, 10, 40] := by
  have hcall : ∀ c op, Show.ω.Called c op → c < 5 ∧ (Show.ω.calls c).map Weak.Rec.op = some op :=
    fun c op hc => Show.called_of Show.ω_reach rfl hc
  have h := C48_swap_conserves Show.ω_init Show.ω_reach Show.ω_disciplined
    (by
      intro c op k hc hw
      obtain ⟨h1, h2⟩ := hcall c op hc
      match c, h1, h2 with
      | 0, _, h2 => cases h2
      | 1, _, h2 => cases h2; exact ⟨0, 1, rfl, rfl⟩
      | 2, _, h2 => cases h2; exact ⟨1, 2, rfl, rfl⟩
      | 3, _, h2 => cases h2; exact hw.elim
      | 4, _, h2 => cases h2; exact hw.elim)
    (vs := [20, 30, 10, 40]) (fs := [10, 20, 30, 40])
    (by
      intro k
      match k with
      | 0 => rfl
      | 1 => rfl
      | 2 => rfl
      | 3 => rfl
      | k + 4 => rfl)
    rfl
    (by
      intro k v hk
      match k, hk with
      | 0, hk => exact .inl hk
      | 1, hk => exact .inl hk
      | 2, hk => exact .inl hk
      | 3, hk => exact .inr ⟨3, .push 40, 3, [40], Cfg.returned_of rfl rfl, rfl, Nat.le_refl _, hk⟩)
  refine ⟨h.1, h.2 4 _ ?_ (Cfg.returned_of rfl rfl)⟩
  intro c op k hc hw
  obtain ⟨h1, h2⟩ := hcall c op hc
  match c, h1, h2 with
  | 0, _, h2 => cases h2
  | 1, _, h2 => exact Cfg.hb_of (H := [1, 2, 3]) rfl (by decide)
  | 2, _, h2 => exact Cfg.hb_of (H := [1, 2, 3]) rfl (by decide)
  | 3, _, h2 => exact Cfg.hb_of (H := [1, 2, 3]) rfl (by decide)
  | 4, _, h2 => cases h2; exact hw.elim

end Verif
