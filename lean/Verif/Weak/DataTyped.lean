import Verif.Weak.Typed
import Verif.Weak.DataOps

/-!
# Accesses to values by the API functions under weak memory

Helper file (no property statements).
-/

set_option linter.unusedSimpArgs false
set_option linter.unusedVariables false

namespace Verif.Weak

variable {α β ρ : Type} {c : Cid} {A : List (Ev α) → Ev α → Prop} {Q : DS α → ρ → Prop} {QP : DS α → PanicKind → Prop}
  {S : DS α} {d : List (Ev α)} {V : Kn}

theorem d_reserve {n : Nat} {o : MOrd} {k : Nat → Prog α ρ} (hA : ∀ b, A [] (.reserve c b n))
    (hk : ∀ b, Does c A Q QP (k b) (free [.reserve c b n] V)) :
    Does c A Q QP ((act (.resFetchAdd n o)).bind k) (free [] V) := by
  refine d_act trivial fun b g _ => ⟨by simpa [devs] using hA b, ?_⟩
  have : dnext c (free [] V) g (.resFetchAdd n o) b = free [.reserve c (show Nat from b) n] V := by
    simp [dnext, devs, dheld, dV]
  rw [this]
  exact hk b

theorem d_chunkLoop {n m : Nat} : ∀ {l : List Nat} {V : Kn} {k : List Slc → Prog α ρ},
    (∀ V' ss, Does c A Q QP (k ss) { S with V := V' }) →
    Does c A Q QP ((CVec.chunkLoop n m l).bind k) { S with V := V } := by
  intro l
  induction l with
  | nil => intro V k hk; exact hk _ _
  | cons i is ih =>
    intro V k hk
    simp only [CVec.chunkLoop, Prog.bind_eq, Prog.bind_assoc, Prog.pure_eq, Prog.ret_bind]
    refine d_slice fun V1 s _ _ => ?_
    exact ih fun V2 ss => hk _ _

theorem d_index {i : Nat} {k : Nat → Prog α ρ} (hk : ∀ V' e, Does c A Q QP (k e) { S with V := V' })
    (hp : ∀ V' k, QP { S with V := V' } k) : Does c A Q QP ((CVec.index i).bind k) S := by
  simp only [CVec.index, Prog.bind_eq, Prog.bind_assoc]
  refine d_get fun V1 o _ => ?_
  cases o with
  | none => exact hp _ _
  | some e => exact hk _ _

theorem d_slGet {s : Slc} {i : Nat} {k : Option Nat → Prog α ρ} (hk : ∀ o, Does c A Q QP (k o) S) :
    Does c A Q QP ((s.get i).bind k) S := by
  unfold Slc.get
  split
  · exact d_colGet (hk _) fun _ => hk _
  · exact hk _

theorem d_slIndex {s : Slc} {i : Nat} {k : Nat → Prog α ρ} (hk : ∀ e, Does c A Q QP (k e) S)
    (hp : ∀ k, QP S k) : Does c A Q QP ((s.index i).bind k) S := by
  simp only [Slc.index, Prog.bind_eq, Prog.bind_assoc]
  refine d_slGet fun o => ?_
  cases o with
  | none => exact hp _
  | some e => exact hk _

theorem d_vecGetRaw {o : MOrd} {i : Nat} {k : Option Nat → Prog α ρ} (hk : ∀ V' p, Does c A Q QP (k p) { S with V := V' }) :
    Does c A Q QP ((CVec.getRaw o i).bind k) S := by
  simp only [CVec.getRaw, Prog.bind_eq, Prog.bind_assoc]
  refine d_reservedLen fun n => ?_
  split
  · simp only [Prog.bind_eq, Prog.bind_assoc]
    exact d_colGet (d_getRaw fun V' p _ => hk V' p) fun _ => hk _ _
  · exact hk _ _

/-- What a call needs and performs. -/
abbrev OpDoes (c : Cid) (op : Op α β) (V : Kn) : Prop :=
  Does c (fun d e => e.cid = c ∧ op.Allows d e) (fun S x => op.Explains c V.wn S.d x)
    (fun S _ => op.ExplainsPanic c S.d) op.prog (free [] V)

section Growth

variable {op : Op α β}

theorem d_push {v : α} : OpDoes c (.push v : Op α β) V := by
  unfold OpDoes
  norm; simp only [CVec.push]; norm
  refine d_reserve (fun b => ⟨rfl, rfl, rfl⟩) fun b => ?_
  refine d_singleItem (fun k => ⟨b, rfl⟩) ?_
  exact d_init (by simp) ⟨rfl, rfl, rfl⟩ ⟨b, rfl, rfl⟩

theorem d_pushForIdx {f : Nat → Option α} : OpDoes c (.pushForIdx f : Op α β) V := by
  unfold OpDoes
  norm; simp only [CVec.pushForIdx]; norm
  refine d_reserve (fun b => ⟨rfl, rfl, rfl⟩) fun b => ?_
  split
  · next v hv =>
    norm
    refine d_singleItem (fun k => ⟨b, rfl⟩) ?_
    exact d_init (by simp) ⟨rfl, rfl, hv⟩ ⟨b, v, rfl, hv, rfl⟩
  · exact ⟨b, rfl⟩

theorem d_extendN {items : List (Option α)} {n : Nat} : OpDoes c (.extendN items n : Op α β) V := by
  unfold OpDoes
  norm; simp only [CVec.extendN]; norm
  refine d_reserve (fun b => ⟨rfl, rfl, rfl⟩) fun b => ?_
  refine d_nItems (fun hn k => ⟨b, [], by simpa using hn, by simp, rfl⟩) ?_
  refine d_writeItems n b items (by simp) (fun vs v hl hp => ⟨rfl, b, vs, rfl, rfl, hl, hp⟩) (fun vs hl hr => ?_)
    (fun vs k hl hp => ⟨b, vs, hl, hp, rfl⟩)
  obtain ⟨rest, hr⟩ := hr
  exact ⟨b, rfl, vs, rest, hl, hr, rfl⟩

theorem d_extend {it : Iter α} : OpDoes c (.extend it : Op α β) V := by
  unfold OpDoes
  norm; simp only [CVec.extend, CVec.extendN]; norm
  refine d_reserve (fun b => ⟨rfl, rfl, rfl⟩) fun b => ?_
  refine d_nItems (fun hn k => ⟨b, [], by simpa using hn, by simp, rfl⟩) ?_
  refine d_writeItems it.hint b it.items (by simp) (fun vs v hl hp => ⟨rfl, b, vs, rfl, rfl, hl, hp⟩) (fun vs hl hr => ?_)
    (fun vs k hl hp => ⟨b, vs, hl, hp, rfl⟩)
  obtain ⟨rest, hr⟩ := hr
  exact ⟨b, rfl, vs, rest, hl, hr, rfl⟩

theorem d_extendForIdx {f : Nat → Option (Iter α)} {n : Nat} : OpDoes c (.extendForIdx f n : Op α β) V := by
  unfold OpDoes
  norm; simp only [CVec.extendForIdx]; norm
  refine d_reserve (fun b => ⟨rfl, rfl, rfl⟩) fun b => ?_
  refine d_nItems (fun hn k => ⟨b, .inl rfl⟩) ?_
  split
  · next it hit =>
    split
    · next hh =>
      norm
      refine d_writeItems n b it.items (by simp)
        (fun vs v hl hp => ⟨rfl, b, it, vs, hit, hh, rfl, rfl, hl, hp⟩) (fun vs hl hr => ?_)
        (fun vs k hl hp => ⟨b, .inr ⟨it, hit, hh, vs, hl, hp, rfl⟩⟩)
      obtain ⟨rest, hr⟩ := hr
      exact ⟨b, it, rfl, hit, hh, vs, rest, hl, hr, rfl⟩
    · exact ⟨b, .inl rfl⟩
  · exact ⟨b, .inl rfl⟩

end Growth

theorem op_does {op : Op α β} (hV : ∀ i ∈ op.needs, V.v i ∧ V.a i) : OpDoes c op V := by
  have hsl : ∀ (s : Slc), (∀ i ∈ positions s.a s.len, V.v i ∧ V.a i) → ∀ i, s.a ≤ i → i < s.a + s.len → V.v i :=
    fun s h i h1 h2 => (h i (List.mem_range'_1.2 ⟨h1, h2⟩)).1
  unfold OpDoes
  cases op with
  | push v => exact d_push
  | pushForIdx f => exact d_pushForIdx
  | extend it => exact d_extend
  | extendN items n => exact d_extendN
  | extendForIdx f n => exact d_extendForIdx
  | len => norm; exact d_len fun V1 n _ _ _ => rfl
  | isEmpty => norm; simp only [CVec.isEmpty]; norm; exact d_len fun V1 n _ _ _ => rfl
  | capacity => norm; exact d_still trivial fun _ => rfl
  | maximumCapacity => norm; exact d_still trivial fun _ => rfl
  | get i => norm; exact d_get fun V1 o _ => rfl
  | index i => norm; exact d_index (fun V1 e => rfl) (fun V1 e => rfl)
  | getCloned i =>
    norm; simp only [CVec.getCloned]; norm
    refine d_reservedLen fun n => ?_
    split
    · norm
      refine d_colGet ?_ (fun _ => .inr ⟨rfl, rfl⟩)
      exact d_clone (fun v => ⟨rfl, rfl, rfl⟩) (fun V1 v _ => .inl ⟨v, rfl, rfl⟩) (fun _ => .inr ⟨rfl, rfl⟩)
    · exact .inr ⟨rfl, rfl⟩
  | iter => norm; exact d_iter fun V1 n _ _ _ => rfl
  | iterCloned =>
    norm; simp only [CVec.iterCloned]; norm
    refine d_iter fun V1 n _ h1 h2 => ?_
    exact d_loopCloned n 0 (fun i _ hi => h2 i (by omega)) (fun d i v _ _ => ⟨rfl, trivial⟩)
      (fun V2 vs hl => ⟨vs, by rw [hl]; exact h1, rfl, rfl⟩)
  | map f =>
    norm; simp only [CVec.map]; norm
    refine d_iter fun V1 n _ h1 h2 => ?_
    exact d_loopMap n 0 (fun i _ hi => h2 i (by omega)) (fun d i v _ _ => ⟨rfl, trivial⟩)
      (fun V2 vs bs hl hb => ⟨n, bs, h1, rfl, vs, hl, rfl, hb⟩)
      (fun V2 vs x hl hx hy => ⟨n, vs, x, hl, rfl, hx, hy⟩)
  | filter f =>
    norm; simp only [CVec.filter]; norm
    refine d_iter fun V1 n _ h1 h2 => ?_
    exact d_loopFilter n 0 (fun i _ hi => h2 i (by omega)) (fun d i v _ _ => ⟨rfl, trivial⟩)
      (fun V2 vs hl hb => ⟨n, _, h1, rfl, vs, hl, rfl, hb, rfl⟩)
      (fun V2 vs x hl hx hy => ⟨n, vs, x, hl, rfl, hx, hy⟩)
  | fold f b =>
    norm; simp only [CVec.fold]; norm
    refine d_iter fun V1 n _ h1 h2 => ?_
    exact d_loopFold n 0 b (fun i _ hi => h2 i (by omega)) (fun d i v _ _ => ⟨rfl, trivial⟩)
      (fun V2 vs r hl hb => ⟨n, r, h1, rfl, vs, hl, rfl, hb⟩)
      (fun V2 vs x g hl hx hy => ⟨n, vs, x, g, hl, rfl, hx, hy⟩)
  | visit f b =>
    norm; simp only [CVec.visit]; norm
    refine d_iter fun V1 n _ h1 h2 => ?_
    exact d_loopVisit n 0 b (fun i _ hi => h2 i (by omega)) (fun d i v _ _ => ⟨rfl, trivial⟩)
      (fun V2 vs r go hb hl hg => ⟨n, r, h1, rfl, vs, go, rfl, hb, hl, hg⟩)
      (fun V2 vs x g hl hx hy => ⟨n, vs, x, g, hl, rfl, hx, hy⟩)
  | reduce f =>
    norm; simp only [CVec.reduce]; norm
    refine d_asSlice fun V1 n _ h1 h2 => ?_
    exact d_loopReduce n 0 (fun i _ hi => h2 i (by omega)) (fun d i v _ _ => ⟨rfl, trivial⟩)
      (fun V2 hn => ⟨n, none, h1, rfl, .inl ⟨hn, rfl, rfl⟩⟩)
      (fun V2 v vs r hl hb => ⟨n, some r, h1, rfl, .inr ⟨v, vs, r, hl, rfl, hb, rfl⟩⟩)
      (fun V2 v vs x g hl hx hy => ⟨n, v, vs, x, g, hl, rfl, hx, hy⟩)
  | indexOf veq t =>
    norm; simp only [CVec.indexOf]; norm
    refine d_iter fun V1 n _ h1 h2 => ?_
    exact d_loopPosition n 0 0 (fun i _ hi => h2 i (by omega)) (fun d i v _ _ => ⟨rfl, trivial⟩)
      (fun V2 vs hl hb => ⟨n, none, h1, rfl, .inl ⟨vs, hl, rfl, hb, rfl⟩⟩)
      (fun V2 vs x hl hy hx => ⟨n, some vs.length, h1, by simp, .inr ⟨vs, x, hl, rfl, hy, hx, rfl⟩⟩)
  | contains veq t =>
    norm; simp only [CVec.contains, CVec.indexOf]; norm
    refine d_iter fun V1 n _ h1 h2 => ?_
    exact d_loopPosition n 0 0 (fun i _ hi => h2 i (by omega)) (fun d i v _ _ => ⟨rfl, trivial⟩)
      (fun V2 vs hl hb => ⟨n, none, h1, rfl, .inl ⟨vs, hl, rfl, hb, rfl⟩⟩)
      (fun V2 vs x hl hy hx => ⟨n, some vs.length, h1, by simp, .inr ⟨vs, x, hl, rfl, hy, hx, rfl⟩⟩)
  | cloneToVec =>
    norm; simp only [CVec.cloneToVec]; norm
    refine d_asSlice fun V1 n _ h1 h2 => ?_
    exact d_loopCloned n 0 (fun i _ hi => h2 i (by omega)) (fun d i v _ _ => ⟨rfl, trivial⟩)
      (fun V2 vs hl => ⟨vs, by rw [hl]; exact h1, rfl, rfl⟩)
  | eqList veq ts =>
    norm; simp only [CVec.eqList]; norm
    refine d_iter fun V1 n _ h1 h2 => ?_
    exact d_loopEqList n 0 ts (fun i _ hi => h2 i (by omega)) (fun d i v _ _ => ⟨rfl, trivial⟩)
      (fun V2 d' b ho => ⟨n, b, h1, rfl, ho⟩) (fun V2 d' ho => ⟨n, ho⟩)
  | debug sh =>
    norm; simp only [CVec.debug]; norm
    refine d_iter fun V1 n _ h1 h2 => ?_
    exact d_loopDebug n 0 (fun i _ hi => h2 i (by omega)) (fun d i v _ _ => ⟨rfl, trivial⟩)
      (fun V2 vs hl => ⟨vs, by rw [hl]; exact h1, rfl, rfl⟩)
  | slice r => norm; exact d_slice fun V1 s _ _ => rfl
  | asSlice => norm; exact d_asSlice fun V1 s _ _ _ => rfl
  | splitAt mid =>
    norm; simp only [CVec.splitAt]; norm
    refine d_len fun V1 n _ _ _ => ?_
    split
    · norm; exact d_slice fun V1 s _ _ => d_slice fun V1 s _ _ => rfl
    · exact rfl
  | splitFirst =>
    norm; simp only [CVec.splitFirst]; norm
    refine d_get fun V1 o _ => ?_
    cases o with
    | none => exact rfl
    | some e => norm; exact d_len fun V1 n _ _ _ => d_slice fun V1 s _ _ => rfl
  | splitLast =>
    norm; simp only [CVec.splitLast]; norm
    refine d_len fun V1 n _ _ _ => ?_
    split
    · exact rfl
    · norm; exact d_slice fun V1 s _ _ => d_index (fun V1 e => rfl) (fun V1 e => rfl)
  | chunks k =>
    norm; simp only [CVec.chunks]
    split
    · norm; exact d_len fun V1 n _ _ _ => d_chunkLoop fun V2 ss => rfl
    · exact rfl
  | getRaw o i => norm; exact d_vecGetRaw fun V1 p => rfl
  | iterRef o =>
    norm; simp only [CVec.iterRef]; norm
    exact d_reservedLen fun n => d_rawRefs (S := free [] V) fun V1 p _ => rfl
  | swap m i j =>
    norm
    exact d_swap (fun h => ⟨rfl, rfl, rfl, rfl, h⟩) (fun V1 h => .inl ⟨h, rfl, rfl⟩) (fun V1 => .inr ⟨rfl, rfl⟩)
  | fill v =>
    norm; simp only [CVec.fill]; norm
    refine d_iter fun V1 n _ h1 h2 => ?_
    exact d_loopFill n 0 (fun i _ hi => h2 i (by omega)) (fun d i o _ _ => ⟨rfl, rfl⟩)
      (fun V2 os hl => ⟨n, h1, rfl, os, hl, rfl⟩)
  | fillWith f =>
    norm; simp only [CVec.fillWith]; norm
    refine d_iter fun V1 n _ h1 h2 => ?_
    exact d_loopFillWith n 0 0 (fun i _ hi => h2 i (by omega)) (fun d i o v _ _ hf => ⟨rfl, by simpa [Op.Allows] using hf⟩)
      (fun V2 ps hl hp => ⟨n, h1, rfl, ps, hl, rfl, by simpa using hp⟩)
      (fun V2 ps hl hp hn => ⟨n, ps, hl, rfl, by simpa using hp, by simpa using hn⟩)
  | elCloned e =>
    norm
    exact d_elCloned (hV e (by simp [Op.needs])).1 (fun v => ⟨rfl, rfl, rfl⟩) (fun V1 v _ => ⟨v, rfl, rfl⟩)
  | elMap f e =>
    norm
    exact d_elMap (hV e (by simp [Op.needs])).1 (fun v => ⟨rfl, rfl, rfl⟩) (fun V1 v b _ h => ⟨v, b, rfl, h, rfl⟩)
      (fun V1 v h => ⟨v, h, rfl⟩)
  | elReplace e v =>
    norm
    exact d_elReplace (hV e (by simp [Op.needs])).1 (fun v => ⟨rfl, rfl, rfl⟩) (fun o => ⟨rfl, rfl, rfl, rfl⟩)
      (fun V1 o _ => ⟨o, rfl, rfl⟩)
  | elSet e v =>
    norm
    exact d_elSet (hV e (by simp [Op.needs])).1 (fun v => ⟨rfl, rfl, rfl, rfl⟩) (fun V1 o _ => ⟨o, rfl, rfl⟩)
  | elUpdate f e =>
    norm
    exact d_elUpdate (hV e (by simp [Op.needs])).1 (fun v => ⟨rfl, rfl, rfl⟩) (fun o => ⟨rfl, rfl, rfl, rfl⟩)
      (fun V1 o _ h => ⟨o, rfl, h, rfl⟩) (fun V1 o h => ⟨o, h, rfl⟩)
  | elEq veq t e =>
    norm; simp only [Elem.eqVal]
    exact d_elMap (hV e (by simp [Op.needs])).1 (fun v => ⟨rfl, rfl, rfl⟩)
      (fun V1 v b _ h => ⟨v, by simp only [Option.some.injEq] at h; rw [h], rfl⟩) (fun V1 v h => by simp at h)
  | slLen s => exact rfl
  | slIsEmpty s => exact rfl
  | slGet s i => norm; exact d_slGet fun o => rfl
  | slIndex s i => norm; exact d_slIndex (fun e => rfl) (fun k => rfl)
  | slGetCloned s i =>
    norm; simp only [Slc.getCloned]
    split
    · next h =>
      have hm := hV (s.a + i) (List.mem_range'_1.2 ⟨by omega, by omega⟩)
      norm
      refine d_colGet ?_ (fun ha => absurd hm.2 ha)
      norm
      exact d_elCloned hm.1 (fun v => ⟨rfl, rfl, h, rfl⟩) (fun V1 v _ => .inl ⟨h, v, rfl, rfl⟩)
    · next h => exact .inr ⟨Nat.le_of_not_lt h, rfl, rfl⟩
  | slIter s => exact rfl
  | slIterCloned s =>
    norm; simp only [Slc.iterCloned, Slc.iter]
    exact d_loopCloned s.len s.a (hsl s hV) (fun d i v h1 h2 => ⟨rfl, h1, h2⟩) (fun V2 vs hl => ⟨vs, rfl, hl, rfl⟩)
  | slMap s f =>
    norm; simp only [Slc.map, Slc.iter]
    exact d_loopMap s.len s.a (hsl s hV) (fun d i v h1 h2 => ⟨rfl, h1, h2⟩)
      (fun V2 vs bs hl hb => ⟨bs, rfl, vs, hl, rfl, hb⟩)
      (fun V2 vs x hl hx hy => ⟨vs, x, hl, rfl, hx, hy⟩)
  | slFilter s f =>
    norm; simp only [Slc.filter, Slc.iter]
    exact d_loopFilter s.len s.a (hsl s hV) (fun d i v h1 h2 => ⟨rfl, h1, h2⟩)
      (fun V2 vs hl hb => ⟨_, rfl, vs, hl, rfl, hb, rfl⟩)
      (fun V2 vs x hl hx hy => ⟨vs, x, hl, rfl, hx, hy⟩)
  | slFold s f b =>
    norm; simp only [Slc.fold, Slc.iter]
    exact d_loopFold s.len s.a b (hsl s hV) (fun d i v h1 h2 => ⟨rfl, h1, h2⟩)
      (fun V2 vs r hl hb => ⟨r, rfl, vs, hl, rfl, hb⟩)
      (fun V2 vs x g hl hx hy => ⟨vs, x, g, hl, rfl, hx, hy⟩)
  | slVisit s f b =>
    norm; simp only [Slc.visit, Slc.iter]
    exact d_loopVisit s.len s.a b (hsl s hV) (fun d i v h1 h2 => ⟨rfl, h1, h2⟩)
      (fun V2 vs r go hb hl hg => ⟨r, rfl, vs, go, rfl, hb, hl, hg⟩)
      (fun V2 vs x g hl hx hy => ⟨vs, x, g, hl, rfl, hx, hy⟩)
  | slReduce s f =>
    norm; simp only [Slc.reduce, Slc.iter]
    exact d_loopReduce s.len s.a (hsl s hV) (fun d i v h1 h2 => ⟨rfl, h1, h2⟩)
      (fun V2 hn => ⟨none, rfl, .inl ⟨hn, rfl, rfl⟩⟩)
      (fun V2 v vs r hl hb => ⟨some r, rfl, .inr ⟨v, vs, r, hl, rfl, hb, rfl⟩⟩)
      (fun V2 v vs x g hl hx hy => ⟨v, vs, x, g, hl, rfl, hx, hy⟩)
  | slIndexOf s veq t =>
    norm; simp only [Slc.indexOf, Slc.iter]
    exact d_loopPosition s.len s.a 0 (hsl s hV) (fun d i v h1 h2 => ⟨rfl, h1, h2⟩)
      (fun V2 vs hl hb => ⟨none, rfl, .inl ⟨vs, hl, rfl, hb, rfl⟩⟩)
      (fun V2 vs x hl hy hx => ⟨some vs.length, by simp, .inr ⟨vs, x, hl, rfl, hy, hx, rfl⟩⟩)
  | slContains s veq t =>
    norm; simp only [Slc.contains, Slc.indexOf, Slc.iter]; norm
    exact d_loopPosition s.len s.a 0 (hsl s hV) (fun d i v h1 h2 => ⟨rfl, h1, h2⟩)
      (fun V2 vs hl hb => ⟨none, rfl, .inl ⟨vs, hl, rfl, hb, rfl⟩⟩)
      (fun V2 vs x hl hy hx => ⟨some vs.length, by simp, .inr ⟨vs, x, hl, rfl, hy, hx, rfl⟩⟩)
  | slEqList s veq ts =>
    norm; simp only [Slc.eqList, Slc.iter]
    exact d_loopEqList s.len s.a ts (hsl s hV) (fun d i v h1 h2 => ⟨rfl, h1, h2⟩)
      (fun V2 d' b ho => ⟨b, rfl, ho⟩) (fun V2 d' ho => ho)
  | slDebug s sh =>
    norm; simp only [Slc.debug, Slc.iter]
    exact d_loopDebug s.len s.a (hsl s hV) (fun d i v h1 h2 => ⟨rfl, h1, h2⟩) (fun V2 vs hl => ⟨vs, rfl, hl, rfl⟩)
  | slSlice s r => exact rfl
  | slSplitAt s mid =>
    norm; simp only [Slc.splitAt]
    split
    · exact rfl
    · exact rfl
  | slSplitFirst s =>
    norm; simp only [Slc.splitFirst]; norm
    refine d_slGet fun o => ?_
    cases o <;> exact rfl
  | slSplitLast s =>
    norm; simp only [Slc.splitLast]
    split
    · exact rfl
    · norm; exact d_slIndex (fun e => rfl) (fun k => rfl)
  | slChunks s k =>
    norm; simp only [Slc.chunks]
    split
    · exact rfl
    · exact rfl
  | slGetRaw s o i =>
    norm; simp only [Slc.getRaw]
    split
    · exact d_vecGetRaw fun V1 p => rfl
    · exact rfl
  | slIterRef s o =>
    norm; simp only [Slc.iterRef, Slc.iter]
    exact d_rawRefs (S := free [] V) fun V1 p _ => rfl
  | slSwap m s i j =>
    norm; simp only [Slc.swap, Slc.idx]
    by_cases hi : i < s.len <;> by_cases hj : j < s.len <;> simp only [hi, hj, if_true, if_false]
    · refine d_swap (fun h => ⟨rfl, rfl, hi, hj, rfl, rfl, fun h' => h (by rw [h'])⟩)
        (fun V1 h => .inl ⟨hi, hj, fun h' => h (by rw [h']), rfl, rfl⟩) (fun V1 => .inr ⟨rfl, rfl⟩)
    · exact .inr ⟨rfl, rfl⟩
    · exact .inr ⟨rfl, rfl⟩
    · exact .inr ⟨rfl, rfl⟩
  | slFill s v =>
    norm; simp only [Slc.fill, Slc.iter]
    exact d_loopFill s.len s.a (hsl s hV) (fun d i o h1 h2 => ⟨rfl, h1, h2, rfl⟩)
      (fun V2 os hl => ⟨rfl, os, hl, rfl⟩)
  | slFillWith s f =>
    norm; simp only [Slc.fillWith, Slc.iter]
    exact d_loopFillWith s.len s.a 0 (hsl s hV) (fun d i o v h1 h2 hf => ⟨rfl, h1, h2, by simpa using hf⟩)
      (fun V2 ps hl hp => ⟨rfl, ps, hl, rfl, by simpa using hp⟩)
      (fun V2 ps hl hp hn => ⟨ps, hl, rfl, by simpa using hp, by simpa using hn⟩)
  | deref e =>
    norm
    refine d_act trivial fun b g _ => ⟨fun x hx => ?_, ⟨b, rfl, rfl⟩⟩
    simp only [devs, List.mem_singleton] at hx
    subst hx
    exact ⟨rfl, rfl, rfl⟩

end Verif.Weak
