import Verif.Model.Intern

/-!
# Rewriting types and saving them in snapshots

Types are graphs of kinds behind handles.  Instantiating a generic type, replacing the unknowns of
inference, closing an equation like `t = Leaf | Node (t, t)` into a recursive type, and saving types
into a snapshot all walk over such a graph once, rebuild it as a batch of kinds with local references,
and store the batch in the table of `Verif.Model.Intern`.

Models `/repo/src/types/type_substitution.rs` 46-102 and 171-311, the mappers of
`/repo/src/types/type_mapper.rs` 47-135, `TieEquation` of `/repo/src/types/recursive_equation.rs` 122-151
(the validation before it, 36-120, is left out) and the capture and restoring of type graphs in
`/repo/src/compiler/snapshot/type_graph.rs` 83-315.  Left out: names of native types in snapshots (the
functions between native types and names are taken as inverses of each other), and how the summaries of
free variables are computed (`affects` is a parameter, with the law that the theorems state).
-/

namespace Ferlium.Intern

/-- The state of a walk: `output` and `seen` of type_substitution.rs 47-48, or `nodes` and `ids` of
type_graph.rs 84-86. -/
structure Walk where
  out : List Kind
  seen : List (Ref × Nat)
deriving DecidableEq, Repr

/-- What differs between the walks. -/
structure Rules where
  /-- A reference that is returned without looking further. -/
  stop : Ref → Option Ref
  /-- The replacement of a reference before it is looked at. -/
  step : Ref → Ref
  /-- The replacement of all that is not a type. -/
  head : Head → Head

/-- The loops over inner types. -/
def visitAll (f : Walk → Ref → Option (Walk × Ref)) : Walk → List Ref → Option (Walk × List Ref)
  | s, [] => some (s, [])
  | s, r :: rest =>
    match f s r with
    | none => none
    | some (s, r') =>
      match visitAll f s rest with
      | none => none
      | some (s, rest') => some (s, r' :: rest')

/-- `substitute_type_rec`, type_substitution.rs 176-246, `map_type_rec`, 248-311, and `capture` with
`capture_kind`, type_graph.rs 99-112 and 164-226.  The depth of the recursion is bounded. -/
def visit (look : Ref → Option Kind) (f : Rules) : Nat → Walk → Ref → Option (Walk × Ref)
  | 0, _, _ => none
  | n + 1, s, r =>
    match f.stop r with
    | some g => some (s, g)
    | none =>
      match s.seen.lookup (f.step r) with
      | some i => some (s, .loc i)
      | none =>
        match look (f.step r) with
        | none => none
        | some k =>
          match visitAll (visit look f n) ⟨s.out ++ [⟨.never, []⟩], (f.step r, s.out.length) :: s.seen⟩ k.kids with
          | none => none
          | some (s', kids) =>
            some (⟨s'.out.set s.out.length ⟨f.head k.head, kids⟩, s'.seen⟩, .loc s.out.length)

/-- More than the number of types of the table: a bound for the depth of walks. -/
def Universe.depth (U : Universe) : Nat := U.main.length + (U.recs.map List.length).sum + 1

/-- All types of a list are walked over with one `seen`, type_substitution.rs 90-94. -/
def walk (U : Universe) (f : Rules) (rs : List Ref) : Option (Walk × List Ref) :=
  visitAll (visit U.look f U.depth) ⟨[], []⟩ rs

/-- `remap_local_type`, type_substitution.rs 171-174; `none` is its panic. -/
def remap (types : List Ref) : Ref → Option Ref
  | .loc i => types[i]?
  | r => some r

/-- `substitute_types_in_place`, type_substitution.rs 89-102; for one type, `substitute_type` and
`map_type_recursive` (46-58, 70-79). -/
def rewrite (order : List Nat → List Nat) (le : Kind → Kind → Bool) (U : Universe) (f : Rules)
    (rs : List Ref) : Option (Universe × List Ref) :=
  match walk U f rs with
  | none => none
  | some (s, rs') =>
    if s.out.isEmpty then some (U, rs') else
      match insertTypes order le U s.out with
      | none => none
      | some (U', types) => (rs'.mapM (remap types)).map (U', ·)

/-- Effects are replaced in functions, subscripts and named types (type_mapper.rs 60-62). -/
def Head.mapEffects (me : List Nat → List Nat) : Head → Head
  | .fn muts effects => .fn muts (me effects)
  | .subscript muts a b => .subscript muts (a.map me) (b.map me)
  | .named d effects => .named d (effects.map me)
  | h => h

/-- `map_type_rec` with an instantiation mapper, type_mapper.rs 53-76: `σ` gives the types of the
variables of the instantiation (117-133); a variable without one stays. -/
def instRules (U : Universe) (affects : Ref → Bool) (σ : Nat → Option Ref) (me : List Nat → List Nat) : Rules where
  stop r :=
    if affects r then
      match U.look r with
      | some ⟨.var x, _⟩ => some ((σ x).getD r)
      | _ => none
    else some r
  step r := r
  head := Head.mapEffects me

/-- `TieEquation`, recursive_equation.rs 126-151; `v` is the handle of the variable. -/
def tieRules (affects : Ref → Bool) (v root : Ref) : Rules where
  stop r := if affects r then none else some r
  step r := if r = v then root else r
  head h := h

/-- `SnapshotTypeGraphBuilder`: everything is copied. -/
def captureRules : Rules where
  stop _ := none
  step r := r
  head h := h

/-- `instantiate_type`, type_substitution.rs 61-63. -/
def instantiate (order : List Nat → List Nat) (le : Kind → Kind → Bool) (U : Universe) (affects : Ref → Bool)
    (σ : Nat → Option Ref) (me : List Nat → List Nat) (r : Ref) : Option (Universe × List Ref) :=
  rewrite order le U (instRules U affects σ me) [r]

/-- `try_intern_recursive_equation` after the validation, recursive_equation.rs 51. -/
def tie (order : List Nat → List Nat) (le : Kind → Kind → Bool) (U : Universe) (affects : Ref → Bool)
    (v root : Ref) : Option (Universe × List Ref) :=
  rewrite order le U (tieRules affects v root) [root]

/-- `capture` of some types and `finish`, type_graph.rs 99-122. -/
def capture (U : Universe) (rs : List Ref) : Option (List Kind × List Ref) :=
  (walk U captureRules rs).map fun (s, rs') => (s.out, rs')

/-- `materialize`, type_graph.rs 229-315, in the table of another process; then the handles of the
saved types. -/
def materialize (order : List Nat → List Nat) (le : Kind → Kind → Bool) (U : Universe) (kinds : List Kind)
    (ids : List Ref) : Option (Universe × List Ref) :=
  match insertTypes order le U kinds with
  | none => none
  | some (U', types) => (ids.mapM (remap types)).map (U', ·)

/-! ## Specification -/

/-- A type with its variables replaced, unfolded to depth `n`.  `σ` gives the unfoldings of the types of
the variables, which are not changed themselves. -/
def subTree (look : Ref → Option Kind) (σ : Nat → Option (Nat → Tree)) (hd : Head → Head) : Nat → Ref → Tree
  | 0, _ => .cut
  | n + 1, r =>
    match look r with
    | none => .missing
    | some k =>
      match k.head with
      | .var x =>
        match σ x with
        | some t => t (n + 1)
        | none => .node (.var x) []
      | h => .node (hd h) (k.kids.map (subTree look σ hd n))

/-- A replacement of variables and effects does not concern a type: none of its variables is replaced, and
none of its effects changes, at any depth. -/
def Untouched (look : Ref → Option Kind) (dom : Nat → Prop) (hd : Head → Head) (r : Ref) : Prop :=
  ∀ s, (s = r ∨ Reaches look r s) → ∀ k, look s = some k →
    hd k.head = k.head ∧ ∀ x, k.head = .var x → ¬ dom x

/-- Variables have no inner types. -/
def PlainVars (look : Ref → Option Kind) : Prop :=
  ∀ r x kids, look r = some ⟨.var x, kids⟩ → kids = []

end Ferlium.Intern
