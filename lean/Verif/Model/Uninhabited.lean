/-
Model of the check that a type has no values, used to let a `match` omit impossible cases.

Source in /repo: src/hir/match.rs (`is_definitely_uninhabited` 40-76,
`named_enum_variant_tys_with_uninhabited_omissions` 92-124).

Simplifications: an interned `Type` is a number and the type store a function giving its `TypeKind`
(equality of interned types is equality of the numbers); the shape of a named type
(`NamedType::instantiated_shape`) is part of the store; type variables, native types, functions and
subscripts are all "opaque".  The recursion is a `partial_fixpoint`: `none` is an endless recursion.
-/

namespace Ferlium.Uninhabited

/-- `TypeKind`, reduced to what the check looks at. -/
inductive Kind where
  | never
  | opaque
  | tuple (fields : List Nat)
  | record (fields : List (String × Nat))
  | variant (variants : List (String × Nat))
  | named (shape : Nat)

/-- `Iterator::any`, with a body that may not return. -/
def anyM (f : Nat → Option Bool) : List Nat → Option Bool
  | [] => some false
  | t :: ts => f t >>= fun b => if b then some true else anyM f ts

/-- `Iterator::all`, with a body that may not return. -/
def allM (f : Nat → Option Bool) : List Nat → Option Bool
  | [] => some true
  | t :: ts => f t >>= fun b => if b then allM f ts else some false

open Lean.Order in
theorem anyM_mono {γ : Type} [PartialOrder γ] (f : γ → Nat → Option Bool) (l : List Nat)
    (h : ∀ t, monotone fun x => f x t) : monotone fun x => anyM (f x) l := by
  induction l with
  | nil => exact monotone_const _
  | cons t ts ih =>
    refine monotone_bind _ _ _ (h t) ?_
    refine monotone_of_monotone_apply _ ?_
    intro b
    cases b
    · exact ih
    · exact monotone_const _

open Lean.Order in
theorem allM_mono {γ : Type} [PartialOrder γ] (f : γ → Nat → Option Bool) (l : List Nat)
    (h : ∀ t, monotone fun x => f x t) : monotone fun x => allM (f x) l := by
  induction l with
  | nil => exact monotone_const _
  | cons t ts ih =>
    refine monotone_bind _ _ _ (h t) ?_
    refine monotone_of_monotone_apply _ ?_
    intro b
    cases b
    · exact monotone_const _
    · exact ih

attribute [partial_fixpoint_monotone] anyM_mono allM_mono

/-- The inner function `go`, src/hir/match.rs 41-74; `seen` is pushed and popped around the recursion,
so it is passed down. -/
def go (kind : Nat → Kind) (ty : Nat) (seen : List Nat) : Option Bool :=
  if ty ∈ seen then some false
  else
    match kind ty with
    | .never => some true
    | .opaque => some false
    | .tuple fields => anyM (fun t => go kind t (ty :: seen)) fields
    | .record fields => anyM (fun t => go kind t (ty :: seen)) (fields.map Prod.snd)
    | .variant variants => allM (fun t => go kind t (ty :: seen)) (variants.map Prod.snd)
    | .named shape => go kind shape (ty :: seen)
partial_fixpoint

/-- `is_definitely_uninhabited`, src/hir/match.rs 40-76. -/
def isDefinitelyUninhabited (kind : Nat → Kind) (ty : Nat) : Option Bool := go kind ty []

/-- The loop of `named_enum_variant_tys_with_uninhabited_omissions`, src/hir/match.rs 112-123; the result
`some none` is the code's `None`. -/
def omissionLoop (kind : Nat → Kind) (covered : List (String × Nat)) :
    List (String × Nat) → Option (Option (List (String × Nat)))
  | [] => some (some [])
  | (tag, payload) :: rest =>
    match covered.lookup tag with
    | some p => (omissionLoop kind covered rest).map fun r => r.map fun l => (tag, p) :: l
    | none =>
      isDefinitelyUninhabited kind payload >>= fun b =>
        if b then (omissionLoop kind covered rest).map fun r => r.map fun l => (tag, payload) :: l
        else some none

/-- `named_enum_variant_tys_with_uninhabited_omissions`, src/hir/match.rs 92-124. -/
def omissions (kind : Nat → Kind) (condition : Nat) (covered : List (String × Nat)) :
    Option (Option (List (String × Nat))) :=
  match kind condition with
  | .named shape =>
    match kind shape with
    | .variant variants => omissionLoop kind covered variants
    | _ => some none
  | _ => some none

end Ferlium.Uninhabited
