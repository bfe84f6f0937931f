/-!
# Inference of mutability

Parameters without annotation are given variables of mutability; the body of a function adds
constraints, and these are solved one after the other by a union-find table.

Models
* `src/types/mutability.rs` 16-114: mutabilities;
* `src/types/type_inference/expr.rs` 5915-5954: which constraints are recorded;
* `src/types/type_inference/unify.rs` 218-269 and 1761-1919: how they are solved;
* `src/types/type_inference/substitution.rs` 165-182: looking up a mutability.

Left out: source positions and the context of an error.  The library of the union-find table (`ena`)
is trusted; which of two joined variables represents the class cannot be observed.
-/

namespace Ferlium.Mutability

/-- `MutType`, src/types/mutability.rs:87-90; `true` is mutable. -/
inductive MutTy where
  | var (x : Nat)
  | val (b : Bool)
deriving DecidableEq, Repr

/-- `MutConstraint`, src/types/type_inference/constraints.rs:86-100. -/
inductive Con where
  | same (current expected : MutTy)
  | atLeast (current target : MutTy)
deriving DecidableEq, Repr

/-- `MutabilityMustBeWhat`, src/compiler/error/compilation.rs:56-60. -/
inductive What where
  | mutable
  | constant
  | equal
deriving DecidableEq, Repr

/-- Whether a constraint is recorded: `add_same_mut_constraint` and
`add_mut_be_at_least_constraint`, src/types/type_inference/expr.rs:5915-5954. -/
def recorded : Con → Bool
  | .same c e => c ≠ e
  | .atLeast c t => t ≠ .val false && c ≠ .val true

/-- The union-find table: the representative of each variable, and the value of a representative. -/
structure Table where
  len : Nat
  rep : Nat → Nat
  value : Nat → Option Bool

/-- The table after `len` calls of `fresh_mut_var`, src/types/type_inference/expr.rs:471-473. -/
def Table.new (len : Nat) : Table := ⟨len, id, fun _ => none⟩

/-- `probe_value` of the table. -/
def Table.probe (t : Table) (x : Nat) : Option Bool := t.value (t.rep x)

/-- `substitute_mut_lookup`, src/types/type_inference/substitution.rs:165-182, accepting variables. -/
def Table.normalize (t : Table) : MutTy → MutTy
  | .val b => .val b
  | .var x => match t.probe x with
    | some b => .val b
    | none => .var (t.rep x)

/-- `unify_values` of the table: values must be equal (`EqUnifyValue`,
src/types/type_inference/tables.rs:51). -/
def unifyValues : Option Bool → Option Bool → Option (Option Bool)
  | none, v => some v
  | v, none => some v
  | some a, some b => if a = b then some (some a) else none

/-- `unify_var_var` of the table. -/
def Table.unifyVars (t : Table) (x y : Nat) : Option Table :=
  if t.rep x = t.rep y then some t
  else match unifyValues (t.probe x) (t.probe y) with
    | some v => some
      { t with
        rep := fun z => if t.rep z = t.rep x then t.rep y else t.rep z
        value := fun r => if r = t.rep y then v else t.value r }
    | none => none

/-- `unify_var_value` of the table. -/
def Table.unifyValue (t : Table) (x : Nat) (b : Bool) : Option Table :=
  match unifyValues (t.probe x) (some b) with
  | some v => some { t with value := fun r => if r = t.rep x then v else t.value r }
  | none => none

/-- An error of the table becomes an error of the compiler. -/
def orErr (w : What) : Option Table → Except What Table
  | some t => .ok t
  | none => .error w

/-- `unify_mut_current_variable`, src/types/type_inference/unify.rs:1836-1878; `sub` is `SubType`. -/
def currentVar (t : Table) (x : Nat) (target sub : Bool) : Except What Table :=
  if sub then
    if target = false then .ok t else orErr .mutable (t.unifyValue x true)
  else orErr .equal (t.unifyValue x target)

/-- `unify_mut_target_variable`, src/types/type_inference/unify.rs:1880-1922. -/
def targetVar (t : Table) (current : Bool) (y : Nat) (sub : Bool) : Except What Table :=
  if sub then
    if current = true then .ok t else orErr .constant (t.unifyValue y false)
  else orErr .equal (t.unifyValue y current)

/-- `unify_mut_must_be_at_least_or_equal`, src/types/type_inference/unify.rs:1761-1834. -/
def unify (t : Table) (current target : MutTy) (sub : Bool) : Except What Table :=
  match t.normalize current, t.normalize target with
  | .var x, .var y => orErr .equal (t.unifyVars x y)
  | .var x, .val b => currentVar t x b sub
  | .val a, .var y => targetVar t a y sub
  | .val a, .val b =>
    if sub then if a = false ∧ b = true then .error .mutable else .ok t
    else if a ≠ b then .error .equal else .ok t

/-- One constraint, src/types/type_inference/unify.rs:221-252. -/
def step (t : Table) : Con → Except What Table
  | .same c e => unify t c e false
  | .atLeast c e => unify t c e true

/-- The loop over the constraints, src/types/type_inference/unify.rs:218-253. -/
def steps (t : Table) : List Con → Except What Table
  | [] => .ok t
  | c :: cs => match step t c with
    | .ok t => steps t cs
    | .error w => .error w

/-- What is left is constant, src/types/type_inference/unify.rs:255-268: the loop from variable `x`
over `n` variables. -/
def closeFrom (t : Table) (x : Nat) : Nat → Table
  | 0 => t
  | n + 1 =>
    closeFrom (match t.probe x with
      | some _ => t
      | none => (t.unifyValue x false).getD t) (x + 1) n

/-- The whole: the constraints of the body (`first`), then what is left becomes constant, then the
constraints which arise when function types are compared (`later`, calls of
`unify_mut_must_be_at_least_or_equal` in src/types/type_inference/unify.rs:789, 829 and 1546). -/
def solve (n : Nat) (first later : List Con) : Except What Table :=
  match steps (Table.new n) first with
  | .ok t => steps (closeFrom t 0 n) later
  | .error w => .error w

/-! ## Specification -/

/-- The mutability under an assignment. -/
def MutTy.under (σ : Nat → Bool) : MutTy → Bool
  | .var x => σ x
  | .val b => b

/-- What a constraint says: equal mutabilities; what is used as mutable is mutable. -/
def Con.Holds (σ : Nat → Bool) : Con → Prop
  | .same c e => c.under σ = e.under σ
  | .atLeast c t => t.under σ = true → c.under σ = true

/-- All variables are below `n`. -/
def MutTy.below (n : Nat) : MutTy → Prop
  | .var x => x < n
  | .val _ => True

/-- All variables are below `n`. -/
def Con.below (n : Nat) : Con → Prop
  | .same c e => c.below n ∧ e.below n
  | .atLeast c t => c.below n ∧ t.below n

/-- A variable is used where another variable is expected. -/
def Con.twoVars : Con → Bool
  | .atLeast (.var _) (.var _) => true
  | _ => false

/-- The stronger constraint: a variable used for another variable has the same mutability. -/
def Con.Strict (σ : Nat → Bool) : Con → Prop
  | .atLeast (.var x) (.var y) => σ x = σ y
  | c => c.Holds σ

end Ferlium.Mutability
