import Verif.Model.Resolve

/-!
Model of the choice of default types: `src/types/type_inference/defaulting.rs`, the boundary of constraints, the defaults of
numeric types, of variants, of the parameters of unit variants, and those of the type of an expression.

Types are those of `Verif.Model.Unify`.  The constraints are already substituted, as at the start of each function.  Effects,
spans, the unification which carries a default out, and the repetition of the whole are not modelled.  Hash sets and maps are lists without
order.
-/
namespace Ferlium.Default
open Ferlium.Unify

/-- `PubTypeConstraint` type_scheme.rs:78-130, with the types which `visit` 525-571 sees.  `other` is the access to parts of
tuples and projections. -/
inductive Con
  | trait (t : Nat) (ins outs : List Ty)
  | variant (tag : Nat) (subject payload : Ty)
  | layout (payload : Ty)
  | other (parts : List Ty)

mutual

/-- `inner_ty_vars` type_like.rs:44-48. -/
def tyVars : Ty → List Nat
  | .never => []
  | .var v => [v]
  | .node _ args => argsVars args

/-- The same for the parts. -/
def argsVars : Args → List Nat
  | .nil => []
  | .cons _ t rest => tyVars t ++ argsVars rest

end

/-- The types of a constraint, `visit` type_scheme.rs:525-571. -/
def Con.types : Con → List Ty
  | .trait _ ins outs => ins ++ outs
  | .variant _ subject payload => [subject, payload]
  | .layout payload => [payload]
  | .other parts => parts

/-- `inner_ty_vars` of a constraint. -/
def Con.vars (c : Con) : List Nat := c.types.flatMap tyVars

/-- `contains_any_type_var` of a constraint. -/
def Con.mentions (c : Con) (v : Nat) : Bool := c.types.any (·.contains v)

/-- The constraints with one of the variables, defaulting.rs:56-61 and 69-74. -/
def touched (vs : List Nat) (cs : List Con) : List Nat :=
  ((List.range cs.length).zip cs).filterMap fun p => if vs.any (p.2.mentions ·) then some p.1 else none

/-- The variables of the constraints with the given numbers, defaulting.rs:64-68. -/
def reachedVars (cs : List Con) (ins : List Nat) : List Nat := ins.flatMap fun i => ((cs[i]?).map (·.vars)).getD []

/-- The loop, defaulting.rs:63-80, for at most as many rounds as the first argument says. -/
def accessibleLoop (cs : List Con) : Nat → List Nat → Option (List Nat)
  | 0, _ => none
  | fuel + 1, ins =>
    let new := touched (reachedVars cs ins) cs
    if new.length = ins.length then some ins else accessibleLoop cs fuel new

/-- `accessible_constraint_indices` defaulting.rs:51-82. -/
def accessible (seeds : List Nat) (cs : List Con) : Option (List Nat) :=
  if seeds.isEmpty then some [] else accessibleLoop cs (cs.length + 1) (touched seeds cs)

/-- The type `int`. -/
def integer : Ty := .node (.native 0) .nil

/-- The type `float`. -/
def float : Ty := .node (.native 2) .nil

/-- The candidates, defaulting.rs:416. -/
def candidates : List Ty := [integer, float]

/-- The constraint forbids a default for the variable, defaulting.rs:425-454. -/
def forbids (v : Nat) : Con → Bool
  | .trait _ ins outs => outs.any (·.contains v) && !ins.any (·.contains v)
  | .variant _ _ _ => false
  | .layout _ => false
  | .other parts => parts.any (·.contains v)

/-- The constraint makes the variable a number, defaulting.rs:434-439. -/
def numeric (num v : Nat) : Con → Bool
  | .trait t (.var w :: _) _ => t == num && w == v
  | _ => false

/-- The next candidate for which there is an implementation, defaulting.rs:478-486. -/
def advance (has : Nat → Ty → Bool) (t : Nat) : Nat → Nat → Nat
  | 0, i => i
  | fuel + 1, i =>
    match candidates[i]? with
    | some ty => if has t ty then i else advance has t fuel (i + 1)
    | none => i

/-- What one constraint does to the choices so far, defaulting.rs:458-490. -/
def consider (has : Nat → Ty → Bool) (num : Nat) (cs : List Con) (chosen : List (Nat × Nat)) : Con → List (Nat × Nat)
  | .trait t [.var v] [] =>
    if cs.any (forbids v) then chosen
    else if !cs.any (numeric num v) then chosen
    else (v, advance has t 2 ((chosen.lookup v).getD 0)) :: chosen
  | _ => chosen

/-- `default_num_types_once` defaulting.rs:403-512: the default for each variable.  `has` is `has_concrete_impl`
trait_solver.rs:2483-2496.  `none` is a failed assertion, defaulting.rs:433. -/
def numDefaults (has : Nat → Ty → Bool) (num : Nat) (cs : List Con) : Option (Nat → Option Ty) :=
  if cs.any (fun | .trait _ [] _ => true | _ => false) then none
  else
    let chosen := cs.foldl (consider has num cs) []
    some fun v => (chosen.lookup v).bind (candidates[·]?)

/-- `has_concrete_impl` for the solver of `Verif.Model.Resolve`: the table of the module and what other modules show. -/
def hasConcrete (env : Resolve.Env) (st : Resolve.State) (t : Nat) (ty : Ty) : Bool := (Resolve.lookup env st none t [ty]).isSome

mutual

/-- The type with the variable replaced, `BitmapInstantiationMapper` defaulting.rs:673-677. -/
def assign (v : Nat) (ty : Ty) : Ty → Ty
  | .never => .never
  | .var w => if w = v then ty else .var w
  | .node h args => .node h (assignArgs v ty args)

/-- The same for the parts. -/
def assignArgs (v : Nat) (ty : Ty) : Args → Args
  | .nil => .nil
  | .cons name t rest => .cons name (assign v ty t) (assignArgs v ty rest)

end

/-- Whether the constraint allows `int` for the variable, defaulting.rs:678-703. -/
def allowsInt (solve : Nat → List Ty → Bool) (v : Nat) (c : Con) : Bool :=
  !c.mentions v ||
    match c with
    | .trait t ins _ =>
      let ins := ins.map (assign v integer)
      !ins.all (·.isConstant) || solve t ins
    | _ => false

/-- `default_unconstrained_expr_ty_vars` defaulting.rs:637-725: which of the variables of the type become `int`.  The constraints are
those from before the first of them did, 660. -/
def exprDefaults (solve : Nat → List Ty → Bool) (cs : List Con) (ty : Ty) : List Nat :=
  (tyVars ty).filter fun v => cs.any (·.mentions v) && cs.all (allowsInt solve v)

/-- The type of nothing, `Type::unit`. -/
def unit : Ty := .node .tuple .nil

/-- Whether the application of a trait allows unit for the variable, defaulting.rs:588-612. -/
def allowsUnitIn (solve : Nat → List Ty → Bool) (v t : Nat) (ins outs : List Ty) : Bool :=
  (ins.any (·.contains v) && !outs.any (·.contains v)) &&
    (!(ins.map (assign v unit)).all (·.isConstant) || solve t (ins.map (assign v unit)))

/-- Whether the constraint allows unit for the variable, defaulting.rs:554-613.  `value` is the trait `Value`. -/
def allowsUnit (solve : Nat → List Ty → Bool) (value v : Nat) (c : Con) : Bool :=
  !c.mentions v ||
    match c with
    | .trait t ins outs => allowsUnitIn solve v t ins outs
    | .layout payload => allowsUnitIn solve v value [payload] []
    | _ => false

/-- The variables considered, defaulting.rs:525-540. -/
def unitCandidates (cs : List Con) : List Nat :=
  cs.flatMap fun
    | .trait _ ins _ => ins.flatMap tyVars
    | .layout payload => tyVars payload
    | _ => []

/-- `default_unit_variant_trait_inputs_to_unit` defaulting.rs:518-632: which variables become unit. -/
def unitDefaults (solve : Nat → List Ty → Bool) (value : Nat) (cs : List Con) : List Nat :=
  (unitCandidates cs).filter fun v => cs.all (allowsUnit solve value v)

/-- The variables which have a variant, defaulting.rs:336-343. -/
def subjects (cs : List Con) : List Nat := cs.filterMap fun | .variant _ (.var v) _ => some v | _ => none

/-- The variables which get no variant type, defaulting.rs:346-363. -/
def spoiled (cs : List Con) (v : Nat) : Bool :=
  cs.any fun
    | .variant _ _ payload => payload.contains v && !(subjects cs).contains v
    | .other parts => parts.any (·.contains v)
    | _ => false

/-- One constraint, defaulting.rs:366-390.  `none` is the failed assertion 383. -/
def addVariant (cs : List Con) (acc : List ((Nat × Nat) × Ty)) : Con → Option (List ((Nat × Nat) × Ty))
  | .variant tag (.var v) payload =>
    if spoiled cs v then some acc
    else if (acc.lookup (v, tag)).isSome then none
    else some (((v, tag), payload) :: acc)
  | _ => some acc

/-- `default_orphan_variants_in_constraints` defaulting.rs:325-399: for each variable the tags and payloads of its type. -/
def variantDefaults (cs : List Con) : Option (Nat → Option (List (Nat × Ty))) :=
  (cs.foldlM (addVariant cs) []).map fun acc v =>
    match acc.filterMap (fun e => if e.1.1 = v then some (e.1.2, e.2) else none) with
    | [] => none
    | l => some l

end Ferlium.Default
