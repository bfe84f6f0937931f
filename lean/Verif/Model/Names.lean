/-
Model of the names under which type, effect and mutability variables are shown.

Sources in /repo: src/format.rs (`type_variable_index_to_string` 183-195, `..._greek` 197-199,
`..._latin` 201-203, `type_variable_subscript` 205-218), src/types/type_scheme.rs
(`display_ty_var_names_with_source_params` 801-830, `display_eff_var_names_with_source_params` 849-877),
src/types/type.rs 91-93, src/types/effects.rs 58, src/types/mutability.rs 74.

Simplifications: `u32` indices are natural numbers (Rust would overflow for indices above
2^32 - 0x3C9); strings are lists of characters; the hash maps are association lists and predicates; the order of
`sorted` is the order of the given list, nothing depends on it.
-/

namespace Ferlium.Names

/-- The loop of decimal formatting: least significant digit first, each put in front.  Used for Rust's
`{}` on integers (`zero = '0'`) and, literally, for src/format.rs 210-215 (`zero = 0x2080`). -/
def digitsLoop (zero : Nat) (index : Nat) (result : List Char) : List Char :=
  if index = 0 then result
  else digitsLoop zero (index / 10) (Char.ofNat (zero + index % 10) :: result)
termination_by index

/-- Rust's `format!("{}", n)` for an unsigned integer. -/
def decimal (n : Nat) : List Char := if n = 0 then ['0'] else digitsLoop 48 n []

/-- `type_variable_index_to_string`, src/format.rs 183-195. -/
def indexToString (index first last : Nat) (fallback : List Char) : List Char :=
  let u := first + index
  if u ≤ last then
    -- `char::from_u32(u).unwrap_or('_')`
    [if u.isValidChar then Char.ofNat u else '_']
  else fallback ++ decimal (u - last)

/-- src/format.rs 197-199. -/
def greek (index : Nat) : List Char := indexToString index 0x3B1 0x3C9 ['T']

/-- src/format.rs 201-203. -/
def latin (index : Nat) : List Char := indexToString index 65 89 ['Z']

/-- `type_variable_subscript`, src/format.rs 205-218. -/
def subscript (index : Nat) : List Char :=
  if index = 0 then ['₀'] else digitsLoop 0x2080 index []

/-- Display of an effect variable, src/types/effects.rs 58 and src/types/type_scheme.rs 868. -/
def effName (index : Nat) : List Char := 'e' :: subscript index

/-- Display of a mutability variable, src/types/mutability.rs 74. -/
def mutName (index : Nat) : List Char := greek index ++ ['ₘ']

/-- The inner loop of `display_ty_var_names_with_source_params`, src/types/type_scheme.rs 819-828: the
first candidate name from `index` on that is not in use. -/
def pick (name : Nat → List Char) (used : List (List Char)) (index : Nat) : Option (List Char) :=
  if name index ∈ used then pick name used (index + 1) else some (name index)
partial_fixpoint

/-- The state of the outer loops: names given so far and names in use. -/
structure Naming where
  names : List (Nat × List Char)
  used : List (List Char)

/-- One round of the second loop, src/types/type_scheme.rs 814-828 and 861-875. -/
def nameStep (name : Nat → List Char) (st : Naming) (q : Nat) : Option Naming :=
  if (st.names.lookup q).isSome then some st
  else do
    let c ← pick name st.used q
    return ⟨(q, c) :: st.names, c :: st.used⟩

/-- The first loop, src/types/type_scheme.rs 807-813: source parameters reserve their names and name
their variable if it is quantified. -/
def sourceNames (quantified : Nat → Bool) : List (List Char) → Nat → Naming → Naming
  | [], _, st => st
  | n :: ns, i, st =>
    sourceNames quantified ns (i + 1)
      ⟨if quantified i then (i, n) :: st.names else st.names, n :: st.used⟩

/-- `display_ty_var_names_with_source_params`, src/types/type_scheme.rs 801-830. -/
def typeNames (source : List (List Char)) (quantifiers : List Nat) : Option Naming :=
  quantifiers.foldlM (nameStep latin)
    (sourceNames (fun i => quantifiers.contains i) source 0 ⟨[], []⟩)

/-- `display_eff_var_names_with_source_params`, src/types/type_scheme.rs 849-877: here every source
parameter gets its name. -/
def effectNames (source : List (List Char)) (quantifiers : List Nat) : Option Naming :=
  quantifiers.foldlM (nameStep effName) (sourceNames (fun _ => true) source 0 ⟨[], []⟩)

end Ferlium.Names
