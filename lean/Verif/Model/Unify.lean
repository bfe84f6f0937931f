/-!
Model of type unification: `unify_sub_or_same_type` and `unify_type_variable` of `src/types/type_inference/unify.rs`, with
`normalize_type` of `substitution.rs`.

Types are finite trees.  Not modelled: effects and mutability, types of subscripts, and the interning of recursive types (a
variable bound to a type which contains it is the result `recursive`, whether or not the equation is then accepted).  The
spans only serve diagnostics.

The union-find table of the crate `ena` is a list with one entry per variable: nothing, a link to another variable, or the
value.  Which of two variables becomes the root is a parameter.  An outer `none` is a panic or an endless loop.
-/
namespace Ferlium.Unify

/-- The constructors of types with parts, `TypeKind` type.rs.  A function type has its arguments and, last, its result. -/
inductive Head
  | native (id : Nat)
  | variant
  | tuple
  | record
  | function
  | named (decl : Nat)
deriving DecidableEq, Repr

mutual

/-- A type. -/
inductive Ty
  | never
  | var (n : Nat)
  | node (h : Head) (args : Args)

/-- The parts of a type, with their names in variants and records. -/
inductive Args
  | nil
  | cons (name : Option Nat) (t : Ty) (rest : Args)

end

deriving instance DecidableEq for Ty, Args

/-- The number of parts. -/
def Args.length : Args → Nat
  | .nil => 0
  | .cons _ _ rest => rest.length + 1

/-- The union-find table. -/
abbrev Table := List (Option Ty)

mutual

/-- `contains_any_type_var` type.rs:1441-1443. -/
def Ty.contains (v : Nat) : Ty → Bool
  | .never => false
  | .var w => v == w
  | .node _ args => args.contains v

/-- The same for the parts. -/
def Args.contains (v : Nat) : Args → Bool
  | .nil => false
  | .cons _ t rest => t.contains v || rest.contains v

end

mutual

/-- `normalize_type` substitution.rs:55-57, with `lookup_type_var` 148-153 and `substitute_type_rec`
type_substitution.rs:176-246. -/
def normalize (tab : Table) (t : Ty) : Option Ty :=
  match t with
  | .never => some .never
  | .var v =>
    match tab[v]? with
    | none => none
    | some none => some (.var v)
    | some (some t) => normalize tab t
  | .node h args => normalizeArgs tab args >>= fun args => some (.node h args)
partial_fixpoint

/-- The same for the parts. -/
def normalizeArgs (tab : Table) (args : Args) : Option Args :=
  match args with
  | .nil => some .nil
  | .cons name t rest => normalize tab t >>= fun t => normalizeArgs tab rest >>= fun rest => some (.cons name t rest)
partial_fixpoint

end

/-- Why unification failed. -/
inductive Err
  | mismatch
  | recursive
deriving DecidableEq

/-- A new table or a failure. -/
abbrev Result := Except Err Table

/-- Give a value to a variable which has none; `unify_var_value` of `ena`. -/
def bind (tab : Table) (v : Nat) (t : Ty) : Option Table :=
  match tab[v]? with
  | some none => some (tab.set v (some t))
  | _ => none

/-- `unify_type_variable` unify.rs:909-955. -/
def unifyVariable (tab : Table) (v : Nat) (t : Ty) : Option Result :=
  if t.contains v then some (.error .recursive) else (bind tab v t).map .ok

/-- Two variables, unify.rs:665-676; `pick` tells which one becomes the root. -/
def unifyVariables (pick : Nat → Nat → Bool) (tab : Table) (v w : Nat) : Option Result :=
  (if pick v w then bind tab v (.var w) else bind tab w (.var v)).map .ok

/-- The constructor is that of types with a number of parts which must agree, unify.rs:705, 735, 777. -/
def checksLength : Head → Bool
  | .variant => true
  | .tuple => true
  | .function => true
  | _ => false

/-- The parts have names which must agree, unify.rs:715 and 757. -/
def checksNames : Head → Bool
  | .variant => true
  | .record => true
  | _ => false

/-- A type of a declaration, for which equal numbers of parts are asserted, unify.rs:875-879. -/
def assertsLength : Head → Bool
  | .named _ => true
  | _ => false

/-- An argument of a function type: the types are compared the other way round, unify.rs:797-803. -/
def swaps (h : Head) (rest : Args) : Bool := decide (h = .function) && decide (rest ≠ .nil)

mutual

/-- `unify_sub_or_same_type` unify.rs:642-907. -/
def unify (pick : Nat → Nat → Bool) (tab : Table) (current expected : Ty) : Option Result :=
  if current = expected then some (.ok tab)
  else
    normalize tab current >>= fun current => normalize tab expected >>= fun expected =>
      if current = expected then some (.ok tab)
      else
        match current, expected with
        | .never, _ => some (.ok tab)
        | _, .never => some (.ok tab)
        | .var v, .var w => unifyVariables pick tab v w
        | .var v, t => unifyVariable tab v t
        | t, .var v => unifyVariable tab v t
        | .node h args, .node h' args' =>
          if h ≠ h' then some (.error .mismatch)
          else if checksLength h && args.length != args'.length then some (.error .mismatch)
          else if assertsLength h && args.length != args'.length then none
          else unifyArgs pick tab h args args'
partial_fixpoint

/-- The loops over the parts, unify.rs:693-701, 714-731, 744-752, 756-773, 786-814, 880-888: both lists are walked together
and the walk ends with the shorter one. -/
def unifyArgs (pick : Nat → Nat → Bool) (tab : Table) (h : Head) (current expected : Args) : Option Result :=
  match current, expected with
  | .cons name t rest, .cons name' t' rest' =>
    if checksNames h && name != name' then some (.error .mismatch)
    else
      (if swaps h rest then unify pick tab t' t else unify pick tab t t') >>= fun r =>
        match r with
        | .error e => some (.error e)
        | .ok tab => unifyArgs pick tab h rest rest'
  | _, _ => some (.ok tab)
partial_fixpoint

end

/-- Type equations solved one after the other, unify.rs:270-316. -/
def solve (pick : Nat → Nat → Bool) (tab : Table) : List (Ty × Ty) → Option Result
  | [] => some (.ok tab)
  | (current, expected) :: rest =>
    match unify pick tab current expected with
    | none => none
    | some (.error e) => some (.error e)
    | some (.ok tab) => solve pick tab rest

/-- A table of fresh variables, `add_ty_vars` unify.rs:119-123. -/
def fresh (n : Nat) : Table := List.replicate n none

end Ferlium.Unify
