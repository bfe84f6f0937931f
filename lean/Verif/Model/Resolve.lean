import Verif.Model.Coherence

/-!
Model of the search for the implementation of a trait for types which are known: `solve_impl` of `src/types/trait_solver.rs`,
with the search as inference does it (`solve_outputs`).

Types, variables and unification are those of `Verif.Model.Unify`, implementations those of `Verif.Model.Coherence`.  Not
modelled: effects, the traits `Value` and `Repr` and everything the compiler provides or derives itself, constraints of other kinds
than traits (they stay open), associated constants, the methods and thunks that are made for an implementation, applications with
requested outputs, `privileged_impl_module`, and improvement: a constraint of which an input is not yet known waits for the next
round (trait_solver.rs:1957-1973 would also look whether only one implementation is left).  Every trait has methods, and no
constraint is written twice, so that each constraint has its own place among the dictionaries (trait_solver.rs:2709-2782).

An outer `none` is a panic or an endless loop.
-/
namespace Ferlium.Resolve
open Ferlium.Unify Ferlium.Coherence

/-- An implementation with the module which has it, and whether other modules see it: `TraitImpl::public`, set by
`is_trait_impl_exportable` module/mod.rs:1937-1949. -/
structure Decl where
  impl : Impl
  home : Nat
  pub : Bool

/-- What the solver works with: the implementations of all modules, the module which is compiled, the choice of roots in
unification, and how deep the search may go: `TRAIT_SOLVER_RECURSION_LIMIT` trait_solver.rs:151, where a depth of 128 is still
allowed, 2979. -/
structure Env where
  decls : List Decl
  cur : Nat
  pick : Nat → Nat → Bool
  levels : Nat := 129

/-- The dictionary of an implementation: which one it is, and the dictionaries for its constraints.  It stands for `TraitImplId`
with the thunks over the dictionaries, trait_solver.rs:3252-3330. -/
inductive Dict
  | mk (decl : Nat) (args : List Dict)

/-- The solver between two requests: the implementations made so far, `concrete_key_to_id` of the module which is compiled, and
`unmaterialized_output_cache` trait_solver.rs:95-110. -/
structure State where
  made : List ((Nat × List Ty) × Dict × List Ty)
  memo : List ((Option Nat × Nat × List Ty) × List Ty)

/-- A solver which was not used yet. -/
def State.new : State := ⟨[], []⟩

/-- `can_use_other_impl` trait_solver.rs:892-896, and all of the module itself.  `scope` is the top of `private_impl_scope`. -/
def usable (env : Env) (scope : Option Nat) (d : Decl) : Bool := d.home == env.cur || d.pub || scope == some d.home

/-- The implementations with their numbers, those of the module itself first. -/
def ordered (env : Env) : List (Decl × Nat) :=
  env.decls.zipIdx.filter (·.1.home == env.cur) ++ env.decls.zipIdx.filter (·.1.home != env.cur)

/-- `get_concrete_impl` trait_solver.rs:2502-2523. -/
def lookup (env : Env) (st : State) (scope : Option Nat) (t : Nat) (ins : List Ty) : Option (Dict × List Ty) :=
  match st.made.lookup (t, ins) with
  | some r => some r
  | none =>
    ((ordered env).find? fun d => d.1.impl.vars == 0 && d.1.impl.trait == t && d.1.impl.inputs == ins && usable env scope d.1).map
      fun d => (.mk d.2 [], d.1.impl.outputs)

/-- `get_blanket_impls` trait_solver.rs:2527-2550. -/
def blankets (env : Env) (t : Nat) : List (Decl × Nat) :=
  (ordered env).filter fun d => d.1.impl.vars != 0 && d.1.impl.trait == t

/-- A search below the present one, with materialization: state, scope, trait and inputs. -/
abbrev Search := State → Option Nat → Nat → List Ty → Option (State × Option (Dict × List Ty))

/-- `solve_application_outputs_without_materializing` trait_solver.rs:3694-3730 with the cache 3619-3680: only the outputs are
kept. -/
def query (sub : Search) (st : State) (scope : Option Nat) (t : Nat) (ins : List Ty) : Option (State × Option (List Ty)) :=
  match (if ins.all (·.isConstant) then st.memo.lookup (scope, t, ins) else none) with
  | some outs => some (st, some outs)
  | none =>
    match sub st scope t ins with
    | none => none
    | some (st', none) => some (⟨st.made, st'.memo⟩, none)
    | some (st', some (_, outs)) =>
      if ins.all (·.isConstant) && outs.all (·.isConstant) then some (⟨st.made, ((scope, t, ins), outs) :: st'.memo⟩, some outs)
      else some (⟨st.made, st'.memo⟩, some outs)

/-- `substitute_in_constraint`, trait_solver.rs:1868. -/
def normConstraint (tab : Table) : Constraint → Option Constraint
  | .haveTrait t ins outs =>
    match ins.mapM (normalize tab), outs.mapM (normalize tab) with
    | some ins, some outs => some (.haveTrait t ins outs)
    | _, _ => none
  | .other => some .other

/-- A constraint with its place in the implementation. -/
abbrev Place := Nat × Constraint

/-- A dictionary which is needed, `ResolvedRuntimeRequirement`: its place, trait and inputs. -/
abbrev Need := Nat × Nat × List Ty

/-- One round over the constraints that remain, trait_solver.rs:1862-2028.  The inner `none` is `BlanketImplMatch::No`. -/
def round (sub : Search) (pick : Nat → Nat → Bool) (scope : Option Nat) :
    State → Table → List Place → Option (State × Option (Table × List Place × List Need))
  | st, tab, [] => some (st, some (tab, [], []))
  | st, tab, (n, c) :: rest =>
    match normConstraint tab c with
    | none => none
    | some .other =>
      match round sub pick scope st tab rest with
      | some (st, some (tab, still, needs)) => some (st, some (tab, (n, .other) :: still, needs))
      | r => r
    | some (.haveTrait t ins outs) =>
      if ins.all (·.isConstant) then
        match query sub st scope t ins with
        | none => none
        | some (st, none) => some (st, none)
        | some (st, some solved) =>
          match Unify.solve pick tab (solved.zip outs) with
          | none => none
          | some (.error _) => some (st, none)
          | some (.ok tab) =>
            match round sub pick scope st tab rest with
            | some (st, some (tab, still, needs)) => some (st, some (tab, still, (n, t, ins) :: needs))
            | r => r
      else
        match round sub pick scope st tab rest with
        | some (st, some (tab, still, needs)) => some (st, some (tab, (n, .haveTrait t ins outs) :: still, needs))
        | r => r

/-- `normalize_blanket_remaining_constraints` trait_solver.rs:1743-1751. -/
def normPlaces (tab : Table) (l : List Place) : Option (List Place) :=
  l.mapM fun p => (normConstraint tab p.2).map fun c => (p.1, c)

/-- The rounds, trait_solver.rs:1860-2092, in the mode `RequireAllResolved`.  There are at most as many as the first argument says. -/
def rounds (sub : Search) (pick : Nat → Nat → Bool) (scope : Option Nat) :
    Nat → State → Table → List Place → Option (State × Option (Table × List Need))
  | 0, _, _, _ => none
  | fuel + 1, st, tab, old =>
    match round sub pick scope st tab old with
    | none => none
    | some (st, none) => some (st, none)
    | some (st, some (tab, still, needs)) =>
      if still = [] then some (st, some (tab, needs))
      else
        match normPlaces tab still with
        | none => none
        | some still =>
          if still = old then some (st, none)
          else
            match rounds sub pick scope fuel st tab still with
            | some (st, some (tab, needs')) => some (st, some (tab, needs ++ needs'))
            | r => r

/-- `match_blanket_impl` trait_solver.rs:1798-2158 for inputs without variables.  The variables of the implementation are the only
ones in the table. -/
def matchBlanket (sub : Search) (pick : Nat → Nat → Bool) (scope : Option Nat) (st : State) (i : Impl) (ins : List Ty) :
    Option (State × Option (List Ty × List Need)) :=
  match Unify.solve pick (fresh i.vars) (i.inputs.zip ins) with
  | none => none
  | some (.error _) => some (st, none)
  | some (.ok tab) =>
    match normPlaces tab ((List.range i.constraints.length).zip i.constraints) with
    | none => none
    | some places =>
      match rounds sub pick scope (i.constraints.length + 1) st tab places with
      | none => none
      | some (st, none) => some (st, none)
      | some (st, some (tab, needs)) =>
        match i.outputs.mapM (normalize tab) with
        | none => none
        | some outs => some (st, some (outs, needs.mergeSort fun a b => a.1 ≤ b.1))

/-- `materialize_trait_runtime_arg_infos` trait_solver.rs:2843-2908. -/
def materialize (sub : Search) (scope : Option Nat) : State → List Need → Option (State × Option (List Dict))
  | st, [] => some (st, some [])
  | st, (_, t, ins) :: rest =>
    match sub st scope t ins with
    | none => none
    | some (st, none) => some (st, none)
    | some (st, some (d, _)) =>
      match materialize sub scope st rest with
      | some (st, some ds) => some (st, some (d :: ds))
      | r => r

/-- The loop of `solve_impl_actual` over the implementations with variables, trait_solver.rs:3067-3510. -/
def search (sub : Search) (env : Env) (scope : Option Nat) (t : Nat) (ins : List Ty) :
    State → List (Decl × Nat) → Option (State × Option (Dict × List Ty))
  | st, [] => some (st, none)
  | st, (d, k) :: rest =>
    if usable env scope d then
      let inner := if d.home = env.cur then scope else some d.home
      match matchBlanket sub env.pick inner st d.impl ins with
      | none => none
      | some (st, none) => search sub env scope t ins st rest
      | some (st, some (outs, needs)) =>
        match materialize sub inner st needs with
        | none => none
        | some (st, none) => search sub env scope t ins st rest
        | some (st, some ds) => some (⟨((t, ins), .mk k ds, outs) :: st.made, st.memo⟩, some (.mk k ds, outs))
    else search sub env scope t ins st rest

/-- `solve_impl_application` trait_solver.rs:2927-3004, with `solving_stack`; the first argument is how many levels are left. -/
def application (env : Env) : Nat → List (Nat × List Ty) → Search
  | levels, stack, st, scope, t, ins =>
    match lookup env st scope t ins with
    | some r => some (st, some r)
    | none =>
      if (t, ins) ∈ stack then some (st, none)
      else
        match levels with
        | 0 => some (st, none)
        | levels + 1 => search (application env levels ((t, ins) :: stack)) env scope t ins st (blankets env t)

/-- `solve_impl` trait_solver.rs:2916-2925: the dictionary and the outputs, when code is made. -/
def solveImpl (env : Env) (st : State) (t : Nat) (ins : List Ty) : Option (State × Option (Dict × List Ty)) :=
  application env env.levels [] st none t ins

/-- `solve_outputs` trait_solver.rs:3579-3588: the outputs, during inference. -/
def solveOutputs (env : Env) (st : State) (t : Nat) (ins : List Ty) : Option (State × Option (List Ty)) :=
  query (application env env.levels []) st none t ins

end Ferlium.Resolve
