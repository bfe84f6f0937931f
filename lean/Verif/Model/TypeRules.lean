import Verif.Model.TypeSpec

/-!
The typing rules of the core language as a programmer would read them, without inference: an expression has a type or it
certainly has no value.
-/
namespace Ferlium.TypeInfer

open Unify (Ty Args Head Table)

/-- The types at which a function can be called; no result type if it does not return. -/
abbrev Uses := Nat → List Ty → Option Ty → Prop

/-- An expression fits where the type is expected: it has the type, or no value. -/
def Fits (o : Option Ty) (τ : Ty) : Prop := ∀ σ, o = some σ → σ = τ

mutual

/-- The expression has the type, or no value if there is no type; `ρ` is the type of the result of the function around. -/
inductive Rule (K : Uses) : Ty → Locals → Expr → Option Ty → Prop
  | lit {ρ Γ k n} : Rule K ρ Γ (.lit k n) (some (native k))
  | local {ρ Γ x m τ} : lookup x Γ = some (m, τ) → Rule K ρ Γ (.local x) (some τ)
  | fn {ρ Γ f args r} : K f args (some r) → Rule K ρ Γ (.fn f) (some (fnTy args r))
  | abs {ρ Γ params body args r o} : params.length = args.length →
      Rule K r (bindParams params (paramTys args) (without params Γ)) body o → Fits o r →
      Rule K ρ Γ (.abs params body) (some (fnTy args r))
  | app {ρ Γ e es args r} : Rule K ρ Γ e (some (fnTy args r)) → RuleAll K ρ Γ es args false → Rule K ρ Γ (.app e es) (some r)
  | appCallee {ρ Γ e es} : Rule K ρ Γ e none → Rule K ρ Γ (.app e es) none
  | appArgs {ρ Γ e es σ ts} : Rule K ρ Γ e (some σ) → RuleAll K ρ Γ es ts true → Rule K ρ Γ (.app e es) none
  | call {ρ Γ f es args o} : K f args o → RuleAll K ρ Γ es args false → Rule K ρ Γ (.call f es) o
  | callArgs {ρ Γ f es args o} : K f args o → es.length = args.length → RuleAll K ρ Γ es args true → Rule K ρ Γ (.call f es) none
  | block {ρ Γ body o} : RuleStmts K ρ Γ unit body o → Rule K ρ Γ (.block body) o
  | assign {ρ Γ x e τ} : lookup x Γ = some (true, τ) → Rule K ρ Γ e (some τ) → Rule K ρ Γ (.assign x e) (some unit)
  | assignValue {ρ Γ x e τ} : lookup x Γ = some (true, τ) → Rule K ρ Γ e none → Rule K ρ Γ (.assign x e) none
  | tuple {ρ Γ es ts} : RuleAll K ρ Γ es ts false → Rule K ρ Γ (.tuple es) (some (tupleTy ts))
  | tupleItems {ρ Γ es ts} : RuleAll K ρ Γ es ts true → Rule K ρ Γ (.tuple es) none
  | ite {ρ Γ c a b oa ob τ} : Rule K ρ Γ c (some bool) → Rule K ρ Γ a oa → Rule K ρ Γ b ob → Fits oa τ → Fits ob τ →
      ¬ (oa = none ∧ ob = none) → Rule K ρ Γ (.ite c a b) (some τ)
  | iteBranches {ρ Γ c a b} : Rule K ρ Γ c (some bool) → Rule K ρ Γ a none → Rule K ρ Γ b none → Rule K ρ Γ (.ite c a b) none
  | iteCond {ρ Γ c a b} : Rule K ρ Γ c none → Rule K ρ Γ (.ite c a b) none
  | ret {ρ Γ e o} : Rule K ρ Γ e o → Fits o ρ → Rule K ρ Γ (.ret e) none

/-- The expressions have the types; if the flag is set, one of them has no value and those after it do not matter. -/
inductive RuleAll (K : Uses) : Ty → Locals → Exprs → List Ty → Bool → Prop
  | nil {ρ Γ} : RuleAll K ρ Γ .nil [] false
  | cons {ρ Γ e es τ ts d} : Rule K ρ Γ e (some τ) → RuleAll K ρ Γ es ts d → RuleAll K ρ Γ (.cons e es) (τ :: ts) d
  | stop {ρ Γ e es ts} : Rule K ρ Γ e none → RuleAll K ρ Γ (.cons e es) ts true

/-- The statements have the type, after a statement of the type before. -/
inductive RuleStmts (K : Uses) : Ty → Locals → Ty → Stmts → Option Ty → Prop
  | nil {ρ Γ τ} : RuleStmts K ρ Γ τ .nil (some τ)
  | bind {ρ Γ last x m e rest σ o} : Rule K ρ Γ e (some σ) → RuleStmts K ρ ((x, m, σ) :: Γ) unit rest o →
      RuleStmts K ρ Γ last (.bind x m e rest) o
  | bindValue {ρ Γ last x m e rest} : Rule K ρ Γ e none → RuleStmts K ρ Γ last (.bind x m e rest) none
  | expr {ρ Γ last e rest σ o} : Rule K ρ Γ e (some σ) → RuleStmts K ρ Γ σ rest o → RuleStmts K ρ Γ last (.expr e rest) o
  | exprValue {ρ Γ last e rest} : Rule K ρ Γ e none → RuleStmts K ρ Γ last (.expr e rest) none

end

/-- The functions before a group can be used at all types of their schemes, those of the group at one type each. -/
def groupUses (sigs : List Sig) (tys : List (List Ty × Ty)) : Uses := fun f args o =>
  (∃ s : Sig, sigs[f]? = some s ∧ ∃ σ : Nat → Ty, args = s.args.map (·.subst σ) ∧
    (s.ret = .never ∧ o = none ∨ s.ret ≠ .never ∧ o = some (s.ret.subst σ))) ∨
  (sigs.length ≤ f ∧ ∃ t : List Ty × Ty, tys[f - sigs.length]? = some t ∧ args = t.1 ∧ o = some t.2)

/-- The group can be typed: its functions have the types. -/
def GroupRule (sigs : List Sig) (group : List Fn) (tys : List (List Ty × Ty)) : Prop :=
  List.Forall₂ (fun (f : Fn) (t : List Ty × Ty) => f.params.length = t.1.length ∧
    ∃ o, Rule (groupUses sigs tys) t.2 (bindParams f.params (paramTys t.1) []) f.body o ∧ Fits o t.2) group tys

/-- The types with other types for the variables. -/
def instances (σ : Nat → Ty) (tys : List (List Ty × Ty)) : List (List Ty × Ty) := tys.map fun t => (t.1.map (·.subst σ), t.2.subst σ)

/-- The most general types of a group: the group has the cases of the types, and no others. -/
def Principal (sigs : List Sig) (group : List Fn) (tys : List (List Ty × Ty)) : Prop :=
  ∀ tys', GroupRule sigs group tys' ↔ ∃ σ : Nat → Ty, tys' = instances σ tys

/-- The scheme of a function with the type: all variables are quantified, and a result type about which nothing is known may be
`never`. -/
def Scheme (t : List Ty × Ty) (s : Sig) : Prop :=
  s.args = t.1 ∧ (∀ a, a ∈ s.args ∨ a = s.ret → ∀ v, a.contains v = true → v ∈ s.vars) ∧
  (s.ret = t.2 ∨ s.ret = .never ∧ ∃ v, t.2 = .var v ∧ ∀ a ∈ t.1, a.contains v = false)

/-- A function which can be used: the type `never` is not inside its type. -/
def Sig.Usable (s : Sig) : Prop := (∀ t ∈ s.args, mentionsNever t = false) ∧ (s.ret = .never ∨ mentionsNever s.ret = false)

end Ferlium.TypeInfer
