import Verif.Model.TypeRun

/-!
The typing rules of the core language and the types of values, written without inference.
-/
namespace Ferlium.TypeInfer

open Unify (Ty Args Head Table)

/-- The types at which a function can be used: arguments and result. -/
abbrev Insts := Nat → List Ty → Ty → Prop

/-- The parameters of a function among the local variables. -/
abbrev paramTys (ts : List Ty) : List (Bool × Ty) := ts.map fun t => (false, t)

mutual

/-- The expression has the type: `I` are the types of the functions and `ρ` is the type of the result of the function around.
An expression which has the first two native types both does not end with a value, so what follows it needs no type. -/
inductive HasTy (I : Insts) : Ty → Locals → Expr → Ty → Prop
  | lit {ρ Γ k n} : HasTy I ρ Γ (.lit k n) (native k)
  | local {ρ Γ x m τ} : lookup x Γ = some (m, τ) → HasTy I ρ Γ (.local x) τ
  | fn {ρ Γ f args r} : I f args r → HasTy I ρ Γ (.fn f) (fnTy args r)
  | abs {ρ Γ params body args r} : params.length = args.length →
      HasTy I r (bindParams params (paramTys args) (without params Γ)) body r → HasTy I ρ Γ (.abs params body) (fnTy args r)
  | app {ρ Γ e es args r} : HasTy I ρ Γ e (fnTy args r) → HasTys I ρ Γ es args → HasTy I ρ Γ (.app e es) r
  | appCallee {ρ Γ e es τ} : HasTy I ρ Γ e (native 0) → HasTy I ρ Γ e (native 1) → HasTy I ρ Γ (.app e es) τ
  | appArgs {ρ Γ e es σ τ} : HasTy I ρ Γ e σ → Diverge I ρ Γ es → HasTy I ρ Γ (.app e es) τ
  | call {ρ Γ f es args r} : I f args r → HasTys I ρ Γ es args → HasTy I ρ Γ (.call f es) r
  | callArgs {ρ Γ f es τ} : Diverge I ρ Γ es → HasTy I ρ Γ (.call f es) τ
  | block {ρ Γ body τ} : StmtsTy I ρ Γ unit body τ → HasTy I ρ Γ (.block body) τ
  | assign {ρ Γ x e τ} : lookup x Γ = some (true, τ) → HasTy I ρ Γ e τ → HasTy I ρ Γ (.assign x e) unit
  | assignValue {ρ Γ x e τ} : HasTy I ρ Γ e (native 0) → HasTy I ρ Γ e (native 1) → HasTy I ρ Γ (.assign x e) τ
  | tuple {ρ Γ es ts} : HasTys I ρ Γ es ts → HasTy I ρ Γ (.tuple es) (tupleTy ts)
  | tupleItems {ρ Γ es τ} : Diverge I ρ Γ es → HasTy I ρ Γ (.tuple es) τ
  | ite {ρ Γ c a b τ} : HasTy I ρ Γ c bool → HasTy I ρ Γ a τ → HasTy I ρ Γ b τ → HasTy I ρ Γ (.ite c a b) τ
  | iteCond {ρ Γ c a b τ} : HasTy I ρ Γ c (native 0) → HasTy I ρ Γ c (native 1) → HasTy I ρ Γ (.ite c a b) τ
  | ret {ρ Γ e τ} : HasTy I ρ Γ e ρ → HasTy I ρ Γ (.ret e) τ

/-- The expressions have the types. -/
inductive HasTys (I : Insts) : Ty → Locals → Exprs → List Ty → Prop
  | nil {ρ Γ} : HasTys I ρ Γ .nil []
  | cons {ρ Γ e es τ ts} : HasTy I ρ Γ e τ → HasTys I ρ Γ es ts → HasTys I ρ Γ (.cons e es) (τ :: ts)

/-- One of the expressions does not end with a value. -/
inductive Diverge (I : Insts) : Ty → Locals → Exprs → Prop
  | here {ρ Γ e es} : HasTy I ρ Γ e (native 0) → HasTy I ρ Γ e (native 1) → Diverge I ρ Γ (.cons e es)
  | later {ρ Γ e es τ} : HasTy I ρ Γ e τ → Diverge I ρ Γ es → Diverge I ρ Γ (.cons e es)

/-- The statements have the type, after a statement of the type before. -/
inductive StmtsTy (I : Insts) : Ty → Locals → Ty → Stmts → Ty → Prop
  | nil {ρ Γ τ} : StmtsTy I ρ Γ τ .nil τ
  | bind {ρ Γ last x m e rest σ τ} : HasTy I ρ Γ e σ → StmtsTy I ρ ((x, m, σ) :: Γ) unit rest τ →
      StmtsTy I ρ Γ last (.bind x m e rest) τ
  | bindValue {ρ Γ last x m e rest τ} : HasTy I ρ Γ e (native 0) → HasTy I ρ Γ e (native 1) →
      StmtsTy I ρ Γ last (.bind x m e rest) τ
  | expr {ρ Γ last e rest σ τ} : HasTy I ρ Γ e σ → StmtsTy I ρ Γ σ rest τ → StmtsTy I ρ Γ last (.expr e rest) τ
  | exprValue {ρ Γ last e rest τ} : HasTy I ρ Γ e (native 0) → HasTy I ρ Γ e (native 1) → StmtsTy I ρ Γ last (.expr e rest) τ

end

mutual

/-- The value has the type. -/
inductive VTy (I : Insts) : Val → Ty → Prop
  | lit {k n} : VTy I (.lit k n) (native k)
  | tuple {vs ts} : VTys I vs ts → VTy I (.tuple vs) (tupleTy ts)
  | fn {f args r} : I f args r → VTy I (.fn f) (fnTy args r)
  | closure {params body env Γ args r} : params.length = args.length → EnvTy I env Γ →
      HasTy I r (bindParams params (paramTys args) Γ) body r → VTy I (.closure params body env) (fnTy args r)

/-- The values have the types. -/
inductive VTys (I : Insts) : List Val → List Ty → Prop
  | nil : VTys I [] []
  | cons {v vs t ts} : VTy I v t → VTys I vs ts → VTys I (v :: vs) (t :: ts)

/-- The variables have the types. -/
inductive EnvTy (I : Insts) : Env → Locals → Prop
  | nil : EnvTy I [] []
  | cons {x v env m τ Γ} : VTy I v τ → EnvTy I env Γ → EnvTy I ((x, v) :: env) ((x, m, τ) :: Γ)

end

/-- The types at which functions with these type schemes can be used: any types for the quantified variables, and any result
type if the function does not return. -/
def Inst (sigs : List Sig) : Insts := fun f args r =>
  ∃ s : Sig, sigs[f]? = some s ∧ ∃ σ : Nat → Ty, args = s.args.map (·.subst σ) ∧ (s.ret = .never ∨ r = s.ret.subst σ)

/-- A type of the core language. -/
inductive Plain : Ty → Prop
  | never : Plain .never
  | var {v} : Plain (.var v)
  | native {k} : Plain (native k)
  | tuple {ts} : (∀ t ∈ ts, Plain t) → Plain (tupleTy ts)
  | fn {args r} : (∀ t ∈ args, Plain t) → Plain r → Plain (fnTy args r)

/-- A type scheme of the core language all of whose variables are quantified. -/
def Sig.Closed (s : Sig) : Prop := ∀ t, t ∈ s.args ∨ t = s.ret → Plain t ∧ ∀ v, t.contains v = true → v ∈ s.vars

/-- The native functions do what their types say: given arguments of the types, they fail or return a value of the result
type, and they fail if the result type is `never`. -/
def NativesOk (p : Program) (sigs : List Sig) : Prop :=
  ∀ (f : Nat) (s : Sig), p.natives[f]? = some s → ∀ (σ : Nat → Ty) (vs : List Val), VTys (Inst sigs) vs (s.args.map (·.subst σ)) →
    p.impl f vs = .fails ∨ ∃ v, p.impl f vs = .value v ∧ s.ret ≠ .never ∧ VTy (Inst sigs) v (s.ret.subst σ)

end Ferlium.TypeInfer
