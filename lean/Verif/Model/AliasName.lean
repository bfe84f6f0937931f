/-!
# Names of generic aliases for types in messages (`src/module/type_alias_name.rs`)

Types are numbers of entries in the table of types, which may be recursive; equal types have equal
numbers. The head of a type is its kind with all that is compared but not matched: names of fields,
mutability and effects of functions, definitions and effect arguments.
-/

namespace Ferlium.AliasName

/-- An entry of the table of types. -/
inductive Kind
  | var (v : Nat)
  | node (head : Nat) (children : List Nat)
deriving DecidableEq, Repr

/-- The table of types. -/
abbrev Graph := Nat → Kind

/-- The substitution found so far and the pairs visited. type_alias_name.rs:153-169. -/
structure St where
  subst : List (Nat × Nat)
  visited : List (Nat × Nat)
deriving DecidableEq, Repr

/-- `subst.get`. -/
def St.get (s : St) (v : Nat) : Option Nat := s.subst.lookup v

/-- `zip(..).all(..)` with a matcher that changes the state, type_alias_name.rs:189-191 and the like.
`none` is out of fuel. -/
def matchAll (f : Nat → Nat → St → Option (Bool × St)) : List (Nat × Nat) → St → Option (Bool × St)
  | [], s => some (true, s)
  | (p, a) :: t, s => match f p a s with
    | none => none
    | some (false, s') => some (false, s')
    | some (true, s') => matchAll f t s'

/-- `match_alias_type_inner`, type_alias_name.rs:163-266. The first argument is fuel; `k` is
`ty_var_count`. -/
def matchTy (g : Graph) (k : Nat) : Nat → Nat → Nat → St → Option (Bool × St)
  | 0, _, _, _ => none
  | n + 1, p, a, s =>
    if (p, a) ∈ s.visited then some (true, s)
    else
      let s1 : St := { s with visited := (p, a) :: s.visited }
      match g p, g a with
      | .var v, ka =>
        if v < k then
          match s1.get v with
          | some t => some (t == a, s1)
          | none => some (true, { s1 with subst := (v, a) :: s1.subst })
        else some (ka == .var v, s1)
      | .node h cs, .node h' cs' =>
        if h = h' ∧ cs.length = cs'.length then matchAll (matchTy g k n) (cs.zip cs') s1
        else some (false, s1)
      | .node .., .var _ => some (false, s1)

/-- The fields of `TypeAliasEntry` that are read; `recursive` is `is_global_recursive` of its type. -/
structure Entry where
  name : List Nat
  params : Nat
  count : Nat
  ty : Nat
  recursive : Bool
deriving DecidableEq, Repr

/-- `GenericAliasName` without its text: the alias and its arguments, `none` where `_` is shown.
type_alias_name.rs:21-26. -/
structure Shown where
  entry : Entry
  args : List (Option Nat)
deriving DecidableEq, Repr

/-- `render_generic_alias_name_with`, type_alias_name.rs:101-151; `n` is fuel. -/
def render (g : Graph) (n : Nat) (ty : Nat) (e : Entry) : Option Shown :=
  if (match g e.ty with | .var v => decide (v < e.count) | _ => false) then none
  else match matchTy g e.count n e.ty ty ⟨[], []⟩ with
    | some (true, s) =>
      let args := (List.range e.count).map s.get
      if args.any (·.isNone) && !e.recursive then none else some ⟨e, args⟩
    | _ => none

/-- `GenericAliasScore::concrete_arg_count`, type_alias_name.rs:47-52. -/
def Shown.concrete (x : Shown) : Nat := (x.args.filter (·.isSome)).length

/-- `GenericAliasScore::cmp`, type_alias_name.rs:55-69. `false` is before `true`. -/
def score (x y : Shown) : Ordering :=
  (compare x.concrete y.concrete).then <|
  (List.compareLex compare (x.args.map fun a => if a.isSome then 1 else 0)
    (y.args.map fun a => if a.isSome then 1 else 0)).then <|
  (compare y.entry.name.length x.entry.name.length).then <|
  List.compareLex compare y.entry.name x.entry.name

/-- `max_by`: the last of the greatest. -/
def maxBy (cmp : Shown → Shown → Ordering) : List Shown → Option Shown
  | [] => none
  | x :: t => some (t.foldl (fun m y => if cmp m y = .gt then m else y) x)

/-- `find_generic_alias_name_with`, type_alias_name.rs:85-99. -/
def find (g : Graph) (n : Nat) (entries : List Entry) (ty : Nat) : Option Shown :=
  maxBy score (entries.filterMap fun e => if e.params = 0 then none else render g n ty e)

end Ferlium.AliasName
