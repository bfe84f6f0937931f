import Verif.Model.Unify

/-!
Model of the check that a trait implementation does not overlap another one: `src/types/coherence.rs`.

Types, variables and unification are those of `Verif.Model.Unify`.  Not modelled: effects (types and implementations have no
effect variables, traits no output effects), the checks of `check_trait_impl` before line 156 (native traits, anonymous types,
the orphan rule), the text of errors, and entries of the table of concrete implementations which the solver added itself.
The solver for types without variables (`TraitSolverProbe::solve_outputs`) is a parameter, as are the traits with derivers.

An outer `none` is a recursion which has not ended after the given number of steps.
-/
namespace Ferlium.Coherence
open Ferlium.Unify

/-- A constraint of an implementation, `PubTypeConstraint` type_scheme.rs:78-130: that types have a trait with the given
outputs, or one of the other kinds (fields, variants, layout of payloads), of which only the existence matters here. -/
inductive Constraint
  | haveTrait (trait : Nat) (inputs outputs : List Ty)
  | other
deriving DecidableEq

/-- An implementation: `TraitKey` with the output types of `TraitImpl`.  It is concrete if it has no variables,
coherence.rs:156; its variables are `0 .. vars`. -/
structure Impl where
  trait : Nat
  vars : Nat
  inputs : List Ty
  outputs : List Ty
  constraints : List Constraint
deriving DecidableEq

/-- What the check sees: the implementations in the order of `iter_visible_impls` coherence.rs:215-271, the solver for types
without variables, the traits with derivers, the trait `Value`, the types with the attribute against deriving it, and the
choice of roots in unification. -/
structure Env where
  impls : List Impl
  solve : Nat → List Ty → Option (List Ty)
  hasDerivers : Nat → Bool
  value : Nat
  noDerive : Nat → Bool
  pick : Nat → Nat → Bool

mutual

/-- `is_constant` type.rs:1450-1455. -/
def _root_.Ferlium.Unify.Ty.isConstant : Ty → Bool
  | .never => true
  | .var _ => false
  | .node _ args => args.isConstant

/-- The same for the parts. -/
def _root_.Ferlium.Unify.Args.isConstant : Args → Bool
  | .nil => true
  | .cons _ t rest => t.isConstant && rest.isConstant

end

mutual

/-- The substitutions of coherence.rs:357-363 and 659-665: every variable is moved by `k`. -/
def _root_.Ferlium.Unify.Ty.shift (k : Nat) : Ty → Ty
  | .never => .never
  | .var v => .var (k + v)
  | .node h args => .node h (args.shift k)

/-- The same for the parts. -/
def _root_.Ferlium.Unify.Args.shift (k : Nat) : Args → Args
  | .nil => .nil
  | .cons name t rest => .cons name (t.shift k) (rest.shift k)

end

/-- The same for a constraint. -/
def Constraint.shift (k : Nat) : Constraint → Constraint
  | .haveTrait trait inputs outputs => .haveTrait trait (inputs.map (·.shift k)) (outputs.map (·.shift k))
  | .other => .other

/-- The answer of the check.  A panic is the failed `expect` at coherence.rs:427. -/
inductive Answer
  | overlap
  | disjoint
  | panic
deriving DecidableEq

/-- What is being looked for, coherence.rs:520. -/
abbrev Query := Nat × List Ty × List Ty

/-- `value_deriver_disabled_for_input` coherence.rs:574-594. -/
def valueDeriverDisabled (env : Env) (trait : Nat) : List Ty → Bool
  | [.node (.named decl) _] => trait == env.value && env.noDerive decl
  | _ => false

/-- Unify inputs, then outputs, pairwise; `zip` ends with the shorter list.  Coherence.rs:375-390, 611-626, 680-695. -/
def unifyHeads (env : Env) (tab : Table) (inputs inputs' outputs outputs' : List Ty) : Option Result :=
  Unify.solve env.pick tab (inputs.zip inputs' ++ outputs.zip outputs')

/-- The first answer other than `disjoint`, as the loop of coherence.rs:525-564 returns it. -/
def firstOther (f : Impl → Option Answer) : List Impl → Option Answer
  | [] => some .disjoint
  | i :: rest =>
    match f i with
    | some .disjoint => firstOther f rest
    | r => r

/-- `constraints_may_be_satisfiable` coherence.rs:411-488 with `trait_constraint_may_be_satisfiable` 490-572,
`concrete_impl_may_match_constraint` 596-641 and `blanket_impl_may_match_constraint` 643-720.  The head of `pending` is the end
of the vector.  `next_ty_var_index` is always the length of the table and is taken from there. -/
def maySatisfy (env : Env) : Nat → Table → List Constraint → List Query → Option Answer
  | 0, _, _, _ => none
  | _ + 1, _, [], _ => some .overlap
  | _ + 1, _, .other :: _, _ => some .panic
  | fuel + 1, tab, .haveTrait trait inputs outputs :: pending, stack =>
    match inputs.mapM (normalize tab), outputs.mapM (normalize tab) with
    | some inputs, some outputs =>
      if inputs.all (·.isConstant) && outputs.all (·.isConstant) then
        match env.solve trait inputs with
        | none => some .disjoint
        | some solved =>
          match Unify.solve env.pick tab (solved.zip outputs) with
          | none => none
          | some (.error _) => some .disjoint
          | some (.ok tab) => maySatisfy env fuel tab pending stack
      else
        let derivers := !valueDeriverDisabled env trait inputs && env.hasDerivers trait
        if derivers && !inputs.all (·.isConstant) then maySatisfy env fuel tab pending stack
        else if (trait, inputs, outputs) ∈ stack then some .overlap
        else
          match firstOther (fun i =>
              if i.vars = 0 then
                match unifyHeads env tab i.inputs inputs i.outputs outputs with
                | none => none
                | some (.error _) => some .disjoint
                | some (.ok tab) => maySatisfy env fuel tab pending ((trait, inputs, outputs) :: stack)
              else
                match unifyHeads env (tab ++ fresh i.vars) (i.inputs.map (·.shift tab.length)) inputs
                    (i.outputs.map (·.shift tab.length)) outputs with
                | none => none
                | some (.error _) => some .disjoint
                | some (.ok tab') =>
                  maySatisfy env fuel tab' ((i.constraints.map (·.shift tab.length)).reverse ++ pending)
                    ((trait, inputs, outputs) :: stack))
              (env.impls.filter (·.trait == trait)) with
          | some .disjoint => if derivers then maySatisfy env fuel tab pending stack else some .disjoint
          | r => r
    | _, _ => none

/-- `blanket_impls_overlap` coherence.rs:326-409. -/
def blanketOverlap (env : Env) (fuel : Nat) (lhs rhs : Impl) : Option Answer :=
  if lhs.inputs.length ≠ rhs.inputs.length then some .disjoint
  else
    match unifyHeads env (fresh (lhs.vars + rhs.vars)) lhs.inputs (rhs.inputs.map (·.shift lhs.vars)) lhs.outputs
        (rhs.outputs.map (·.shift lhs.vars)) with
    | none => none
    | some (.error _) => some .disjoint
    | some (.ok tab) => maySatisfy env fuel tab (lhs.constraints ++ rhs.constraints.map (·.shift lhs.vars)).reverse []

/-- `impls_overlap` coherence.rs:274-319, with `concrete_as_blanket_sub_key` 321-323: a concrete implementation has no
constraints. -/
def implsOverlap (env : Env) (fuel : Nat) (new existing : Impl) : Option Answer :=
  if new.vars = 0 ∧ existing.vars = 0 then some (if new.inputs = existing.inputs then .overlap else .disjoint)
  else blanketOverlap env fuel new existing

/-- The loop of `check_trait_impl` coherence.rs:170-192. -/
def checkImpl (env : Env) (fuel : Nat) (new : Impl) : Option Answer :=
  firstOther (implsOverlap env fuel new) (env.impls.filter (·.trait == new.trait))

/-- The implementations of a module one after the other, emit_hir.rs:984-1172: each one is checked against those before it
and then added.  `env` tells what the solver knows when the given implementations are there. -/
def declare (env : List Impl → Env) (fuel : Nat) : List Impl → List Impl → Option Answer
  | _, [] => some .disjoint
  | known, new :: rest =>
    match checkImpl (env known) fuel new with
    | some .disjoint => declare env fuel (known ++ [new]) rest
    | r => r

end Ferlium.Coherence
