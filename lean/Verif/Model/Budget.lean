import Mathlib.Data.List.Basic

/-!
Model of the optimizer's growth budgets: `src/mir/pass/budget.rs`, the specialization table of
`src/mir/pass/monomorphize.rs` and the owned-argument variant factory of `src/mir/pass/owned_arguments.rs`.
-/
namespace Ferlium.Budget

/-- `usize::saturating_mul` on a 64-bit target. -/
def satMul (a b : Nat) : Nat := min (a * b) (2^64 - 1)

/-- `specialization_limit` budget.rs:99-106. -/
def specializationLimit (declared : Nat) : Nat :=
  let scaled := satMul declared 4
  if scaled > 512 then scaled else 512

/-- `owned_argument_variant_limit` budget.rs:121-128. -/
def ownedVariantLimit (sources : Nat) : Nat :=
  let scaled := satMul sources 2
  if scaled > 256 then scaled else 256

/-! ### Specializations -/

variable {K : Type} [DecidableEq K]

/-- `Specializations` monomorphize.rs: how many bodies were created (`created.len()`, also the next local id relative
to `first_index`), the key cache and the rejected keys. -/
structure Table (K : Type) where
  created : Nat
  cache : K → Option Nat
  rejected : K → Bool

/-- The empty table. -/
def Table.empty : Table K := ⟨0, fun _ => none, fun _ => false⟩

/-- A call site's request, with the outcome of the two analyses it may need: `worth_specializing`, and the already
created specialization the new body duplicates (`identical_to`), if any. -/
structure Request (K : Type) where
  key : K
  worth : Bool
  duplicate : Option Nat

/-- `get_or_create` monomorphize.rs:406-460.  The bodies themselves are not modelled. -/
def getOrCreate (T : Table K) (r : Request K) : Table K × Nat :=
  match T.cache r.key with
  | some id => (T, id)
  | none =>
    match r.duplicate with
    | some id => ({ T with cache := fun k => if k = r.key then some id else T.cache k }, id)
    | none =>
      ({ T with created := T.created + 1, cache := fun k => if k = r.key then some T.created else T.cache k },
       T.created)

/-- `specialization_for` monomorphize.rs:1102-1178, from the cache lookup (1160) on. -/
def specializationFor (limit : Nat) (T : Table K) (r : Request K) : Table K × Option Nat :=
  match T.cache r.key with
  | some id => (T, some id)
  | none =>
    if T.rejected r.key then (T, none)
    else if T.created ≥ limit then (T, none)
    else if !r.worth then ({ T with rejected := fun k => if k = r.key then true else T.rejected k }, none)
    else let (T', id) := getOrCreate T r; (T', some id)

/-- Serving a sequence of requests. -/
def serve (limit : Nat) (T : Table K) : List (Request K) → Table K
  | [] => T
  | r :: rs => serve limit (specializationFor limit T r).1 rs

/-! ### Owned-argument variants -/

/-- `VariantFactory` owned_arguments.rs:62-74: keys generated so far (newest first), the cache, the active keys. -/
structure Factory (K : Type) where
  generated : List K
  cache : List (K × Option Nat)
  active : List K

/-- The new factory. -/
def Factory.empty : Factory K := ⟨[], [], []⟩

mutual
/-- `variant_for` owned_arguments.rs:168-232.  `sinks k` is what `rewrite_variant` (234-348) finds in the source body of
`k` before recursing: `none` when the rewrite is refused, otherwise the variants its call sites forward to, in order.
Recursion is bounded by `fuel`; running out is the outer `none` (it never happens with enough fuel). -/
def variantFor (sinks : K → Option (List K)) (limit : Nat) : Nat → Factory K → K → Option (Factory K × Option Nat)
  | 0, _, _ => none
  | fuel + 1, F, key =>
    match F.cache.lookup key with
    | some cached => some (F, cached)
    | none =>
      if F.generated.length ≥ limit ∨ key ∈ F.active then some (F, none)
      else
        let F := { F with active := key :: F.active }
        match sinks key with
        | none => some ({ F with active := F.active.erase key, cache := (key, none) :: F.cache }, none)
        | some forwards =>
          match forwardAll sinks limit fuel F forwards with
          | none => none
          | some (F, ok) =>
            let F := { F with active := F.active.erase key }
            if ok then
              let id := F.generated.length
              some ({ F with generated := key :: F.generated, cache := (key, some id) :: F.cache }, some id)
            else some ({ F with cache := (key, none) :: F.cache }, none)
/-- The loop over forwarding sites owned_arguments.rs:316-323; `false` when one request fails (`?`). -/
def forwardAll (sinks : K → Option (List K)) (limit : Nat) : Nat → Factory K → List K → Option (Factory K × Bool)
  | 0, _, _ => none
  | _ + 1, F, [] => some (F, true)
  | fuel + 1, F, k :: ks =>
    match variantFor sinks limit fuel F k with
    | none => none
    | some (F, none) => some (F, false)
    | some (F, some _) => forwardAll sinks limit fuel F ks
end

/-- Requests made by the callers in turn (`rewrite_caller`). -/
def requestAll (sinks : K → Option (List K)) (limit fuel : Nat) : Factory K → List K → Option (Factory K)
  | F, [] => some F
  | F, k :: ks =>
    match variantFor sinks limit fuel F k with
    | none => none
    | some (F, _) => requestAll sinks limit fuel F ks

end Ferlium.Budget
