import Verif.Model.Basic

/-!
# Programs

A program is a tree of primitive actions.  `step a again k` performs `a`; if `again` accepts the response
the same step is performed again (a spin loop whose body is the single action `a`), otherwise the program
continues with `k response`.
-/

namespace Verif

inductive Prog (α : Type) (ρ : Type) : Type where
  | ret (r : ρ)
  | panic (k : PanicKind)
  | step (a : Act α) (again : a.Resp → Bool) (k : a.Resp → Prog α ρ)

namespace Prog

variable {α ρ ρ' : Type}

def bind : Prog α ρ → (ρ → Prog α ρ') → Prog α ρ'
  | .ret r, f => f r
  | .panic k, _ => .panic k
  | .step a again k, f => .step a again (fun b => (k b).bind f)

instance : Monad (Prog α) where
  pure := .ret
  bind := bind

@[simp] theorem pure_eq (r : ρ) : (pure r : Prog α ρ) = .ret r := rfl
@[simp] theorem bind_eq (p : Prog α ρ) (f : ρ → Prog α ρ') : (p >>= f) = p.bind f := rfl
@[simp] theorem map_eq (f : ρ → ρ') (p : Prog α ρ) : (f <$> p) = p.bind (fun r => .ret (f r)) := rfl
@[simp] theorem ret_bind (r : ρ) (f : ρ → Prog α ρ') : (Prog.ret r).bind f = f r := rfl
@[simp] theorem panic_bind (k : PanicKind) (f : ρ → Prog α ρ') : (Prog.panic k).bind f = .panic k := rfl
@[simp] theorem step_bind (a : Act α) (g : a.Resp → Bool) (k : a.Resp → Prog α ρ) (f : ρ → Prog α ρ') :
    (Prog.step a g k).bind f = .step a g (fun b => (k b).bind f) := rfl

theorem bind_assoc {ρ'' : Type} (p : Prog α ρ) (f : ρ → Prog α ρ') (g : ρ' → Prog α ρ'') :
    (p.bind f).bind g = p.bind (fun r => (f r).bind g) := by
  induction p with
  | ret r => rfl
  | panic k => rfl
  | step a again k ih => simp only [step_bind, ih]

theorem bind_ret (p : Prog α ρ) : p.bind .ret = p := by
  induction p with
  | ret r => rfl
  | panic k => rfl
  | step a again k ih => simp only [step_bind, ih]

end Prog

/-- A single primitive action as a program. -/
def act {α : Type} (a : Act α) : Prog α a.Resp := .step a (fun _ => false) .ret

/-- `loop { match action { ... continue ..., r => break r } }`: repeat `a` while `again` holds. -/
def spin {α : Type} (a : Act α) (again : a.Resp → Bool) : Prog α a.Resp := .step a again .ret

end Verif
