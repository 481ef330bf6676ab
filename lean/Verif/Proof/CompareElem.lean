import Verif.Proof.Fair
import Verif.Proof.Stalled
import Verif.Spec.Compare

/-!
# The stages of an element call, for C55
-/

namespace Verif

variable {α β : Type} {l : List α} {κ κ' : Cfg α β} {c : Cid} {e : Nat}

/-- After the attempt to take the handle. -/
def Prog.gotE (e : Nat) (b : Bool) : Prog α (Ret α β) :=
  if b then .step (.valRead e) (fun _ => false) fun (x : α) => .step (.stStore e .SOME .release) (fun _ => false) fun _ => .ret (.val x)
  else .panic .noValue

theorem elCloned_prog (e : Nat) : (Op.elCloned e : Op α β).prog =
    .step (.stCas e .SOME .RESERVED .acquire .relaxed) (fun (r : Option CState) => r == some .RESERVED)
      fun (r : Option CState) => Prog.gotE e r.isNone := by
  simp only [Op.prog, Elem.cloned, COpt.cloneIntoOption, COpt.lock, COpt.unlock, spin, act, Prog.map_eq, Prog.bind_eq, Prog.step_bind,
    Prog.ret_bind, Prog.pure_eq]
  congr 1
  funext r
  change Option CState at r
  cases r <;> rfl

/-- How far a call of `elCloned` is. -/
inductive Stage (α : Type) where
  | wait
  | held
  | read (x : α)
  | free (x : α)

/-- What the call still has to do. -/
def Stage.prog (e : Nat) : Stage α → Prog α (Ret α β)
  | .wait => (Op.elCloned e).prog
  | .held => .step (.valRead e) (fun _ => false) fun (x : α) =>
      .step (.stStore e .SOME .release) (fun _ => false) fun _ => .ret (.val x)
  | .read x => .step (.stStore e .SOME .release) (fun _ => false) fun _ => .ret (.val x)
  | .free x => .ret (.val x)

/-- What the call knows. -/
def Stage.Knows (κ : Cfg α β) (c : Cid) (e : Nat) : Stage α → Prop
  | .wait => True
  | .held => κ.w.holder e = some c
  | .read x => κ.w.holder e = some c ∧ κ.content e = some x
  | .free _ => True

/-- Call `c` is a call of `elCloned e` and has come to stage `s`. -/
structure At (κ : Cfg α β) (c : Cid) (e : Nat) (s : Stage α) : Prop where
  call : ∃ ct st, κ.calls c = some ⟨.elCloned e, ct, st, .running (s.prog e)⟩
  knows : s.Knows κ c e

/-- A step of the vector, or none, in which call `c` gets no further. -/
structure Quiet (κ κ' : Cfg α β) (c : Cid) : Prop where
  step : κ' = κ ∨ Step κ κ'
  same : κ'.calls c = κ.calls c

theorem Quiet.refl (κ : Cfg α β) (c : Cid) : Quiet κ κ c := ⟨.inl rfl, rfl⟩

/-- A running call that gets no further relies on the others. -/
theorem CfgInv.rely_same (h : CfgInv (.ofList l) κ) (hq : Quiet κ κ' c) {r : Rec α β} {p : Prog α (Ret α β)}
    (hc : κ.calls c = some r) (hr : r.status = .running p) : Rely c κ.w κ'.w := by
  rcases hq.step with rfl | hs
  · exact .refl _ _
  rcases h.step_other hs hc hr with hmv | ⟨-, hR⟩
  · rcases h.moves hmv hc with ⟨-, -, hw⟩ | ⟨r', hc', hadv⟩
    · rw [hw]; exact .refl _ _
    · exfalso
      rw [hq.same, hc] at hc'
      cases hc'
      rcases hadv with hen | ⟨a, again, k, b, h1, h2, h3⟩
      · rw [hr] at hen; cases hen
      · have h4 := congrArg Rec.status h3
        rw [h1] at h4
        simp only [Status.running.injEq] at h4
        exact Prog.cont_ne _ a again k b rfl h4.symm
  · exact hR

theorem Quiet.inv (hq : Quiet κ κ' c) (h : CfgInv (.ofList l) κ) : CfgInv (.ofList l) κ' := by
  rcases hq.step with rfl | hs
  · exact h
  · exact h.step hs

theorem At.quiet {s : Stage α} (ha : At κ c e s) (h : CfgInv (.ofList l) κ) (hq : Quiet κ κ' c) : At κ' c e s := by
  obtain ⟨⟨ct, st, hc⟩, hk⟩ := ha
  have hR := h.rely_same hq hc rfl
  refine ⟨⟨ct, st, by rw [hq.same, hc]⟩, ?_⟩
  cases s with
  | wait => trivial
  | held => exact (hR.hold _ hk).1
  | read x =>
    refine ⟨(hR.hold _ hk.1).1, ?_⟩
    rw [(hq.inv h).content_eq, (hR.hold _ hk.1).2, ← h.content_eq]
    exact hk.2
  | free x => trivial

/-- Configuration after an action of call `c`. -/
abbrev Cfg.acted (κ : Cfg α β) (c : Cid) (r : Rec α β) (w' : World α) (p : Prog α (Ret α β)) : Cfg α β :=
  { κ with w := w', calls := κ.setStatus c r (.running p), clock := κ.clock + 1 }

theorem Cfg.acted_calls {r : Rec α β} {w' : World α} {p : Prog α (Ret α β)} :
    (κ.acted c r w' p).calls c = some { r with status := .running p } := setStatus_self

section

variable {r : Rec α β} {a : Act α} {again : a.Resp → Bool} {g : a.Resp → Prog α (Ret α β)} {w' : World α} {b : a.Resp}

theorem At.next {s : Stage α} (ha : At κ c e s) (hc : κ.calls c = some r) {p : Prog α (Ret α β)} (hr : r.status = .running p) :
    p = s.prog e ∧ r.op = .elCloned e := by
  obtain ⟨⟨ct, st, hc1⟩, -⟩ := ha
  rw [hc1] at hc
  cases hc
  cases hr
  exact ⟨rfl, rfl⟩

/-- Attempt to take the handle. -/
theorem At.lock (ha : At κ c e .wait) (h : CfgInv (.ofList l) κ) (hpub : (κ.w.spec.val e).isSome)
    (hc : κ.calls c = some r) (hr : r.status = .running (.step a again g)) (he : κ.w.exec c a = some (w', b)) :
    (again b = true ∧ At (κ.acted c r w' (.step a again g)) c e .wait) ∨
    (again b = false ∧ At (κ.acted c r w' (g b)) c e .held) := by
  obtain ⟨h1, h2⟩ := ha.next hc hr
  simp only [Stage.prog, elCloned_prog, Prog.step.injEq] at h1
  obtain ⟨rfl, h3, h4⟩ := h1
  have h3 := eq_of_heq h3
  have h4 := eq_of_heq h4
  subst h3 h4
  change Option CState at b
  have hst := h.inv.st_none e
  simp only [World.exec, Act.exec] at he
  have hcap : e < κ.w.mem.cap := h.inv.pub_cap e hpub
  simp only [hcap, if_true] at he
  by_cases hs : κ.w.mem.st e = .SOME
  · right
    simp only [hs, if_true, Option.some.injEq, Prod.mk.injEq] at he
    obtain ⟨rfl, rfl⟩ := he
    refine ⟨rfl, ⟨r.callT, r.start, ?_⟩, ?_⟩
    · rw [Cfg.acted_calls, ← h2]
      rfl
    · show upd κ.w.holder e (some c) e = some c
      simp
  · left
    simp only [hs, if_false, Option.some.injEq, Prod.mk.injEq] at he
    obtain ⟨rfl, rfl⟩ := he
    refine ⟨?_, ⟨r.callT, r.start, ?_⟩, trivial⟩
    · rcases hv : κ.w.mem.st e with _ | _ | _
      · rw [hst.1 hv] at hpub; cases hpub
      · rfl
      · exact absurd hv hs
    · rw [Cfg.acted_calls, ← h2, Stage.prog, elCloned_prog]

/-- Reading the value. -/
theorem At.readValue (ha : At κ c e .held) (h : CfgInv (.ofList l) κ)
    (hc : κ.calls c = some r) (hr : r.status = .running (.step a again g)) (he : κ.w.exec c a = some (w', b)) :
    again b = false ∧ ∃ x, At (κ.acted c r w' (g b)) c e (.read x) := by
  obtain ⟨h1, h2⟩ := ha.next hc hr
  simp only [Stage.prog, Prog.step.injEq] at h1
  obtain ⟨rfl, h3, h4⟩ := h1
  have h3 := eq_of_heq h3
  have h4 := eq_of_heq h4
  subst h3 h4
  change α at b
  have hh : κ.w.holder e = some c := ha.knows
  have hpub := h.inv.pub_of_holder (i := e) (by rw [hh]; rfl)
  have hcap : e < κ.w.mem.cap := h.inv.pub_cap e hpub
  have hcont : κ.content e = κ.w.spec.val e := h.content_eq e
  rw [← h.inv.val_eq e hpub] at hcont
  simp only [World.exec, Act.exec, hcap, if_true] at he
  split at he
  · cases he
  · rename_i hv
    split at hv
    · rename_i hval
      cases hv
      simp only [Option.some.injEq, Prod.mk.injEq] at he
      obtain ⟨rfl, rfl⟩ := he
      refine ⟨rfl, _, ⟨r.callT, r.start, ?_⟩, hh, hcont.trans hval⟩
      rw [Cfg.acted_calls, ← h2]; rfl
    · cases hv

/-- Giving the handle back. -/
theorem At.unlock {x : α} (ha : At κ c e (.read x))
    (hc : κ.calls c = some r) (hr : r.status = .running (.step a again g)) (he : κ.w.exec c a = some (w', b)) :
    again b = false ∧ At (κ.acted c r w' (g b)) c e (.free x) := by
  obtain ⟨h1, h2⟩ := ha.next hc hr
  simp only [Stage.prog, Prog.step.injEq] at h1
  obtain ⟨rfl, h3, h4⟩ := h1
  have h3 := eq_of_heq h3
  have h4 := eq_of_heq h4
  subst h3 h4
  refine ⟨rfl, ⟨r.callT, r.start, ?_⟩, trivial⟩
  rw [Cfg.acted_calls, ← h2]; rfl

end

end Verif
