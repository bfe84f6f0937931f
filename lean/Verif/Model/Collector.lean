import Verif.Model.Checkpoint

/-!
# Functions made by the search for implementations
(`src/module/trait_impl.rs`, `src/types/trait_solver.rs`, `src/module/mod.rs`)

A body is the list of the functions it calls. Names are numbers; `cand base k` is the name with the
suffix `k`, which for 0 is the name itself. Visibilities, types and effects are left out.
-/

namespace Ferlium.Collector

open Ferlium.Checkpoint (Defs)

/-- `unique_generated_name`, module/mod.rs:87-102, from suffix `k` on; `n` is fuel. -/
def unique (cand : Nat → Nat) (taken : Nat → Bool) : Nat → Nat → Option Nat
  | 0, _ => none
  | n + 1, k => if taken (cand k) then unique cand taken n (k + 1) else some (cand k)

/-- The implementations and the collector of functions: `TraitImpls`, trait_impl.rs:406-425, whose four
maps are `keys 0` to `keys 3`, and `PendingFunctionCollector`, trait_impl.rs:299-304. An implementation
is the list of its methods and getters; `none` is a slot that is reserved. -/
structure St where
  initial : Nat
  elems : List (Nat × Option (List Nat))
  data : List (List Nat)
  keys : Nat → Nat → Option Nat

/-- `next_id`, trait_impl.rs:349-351. -/
def St.next (s : St) : Nat := s.initial + s.elems.length

/-- What the search does. -/
inductive Act
  | push (name : Nat) (body : List Nat)
  | reserve (name : Nat)
  | replace (id : Nat) (body : List Nat)
  | add (table key : Nat) (methods : List Nat)
  | attempt (acts : List Act)

/-- The name for a new element, trait_impl.rs:343-347. -/
def St.fresh (cand : Nat → Nat → Nat) (s : St) (name : Nat) : Option Nat :=
  unique (cand name) (fun n => s.elems.any (·.1 == n)) (s.elems.length + 1) 0

mutual
/-- `push_with_visibility`, `reserve_with_visibility`, `replace`, trait_impl.rs:357-385;
`add_concrete_struct` and the like, 666-675; an attempt that is taken back,
trait_solver.rs:2216-2240, 3710-3725. The functions that a body or an implementation names are ones that
the collector has given out, and within an attempt only slots are replaced that the attempt reserved:
those before `base` are not; all else is `none`, as is a replacement that panics. -/
def run (cand : Nat → Nat → Nat) (base : Nat) (s : St) : Act → Option St
  | .push name body =>
    if body.all (· < s.next) then
      (s.fresh cand name).map fun n => { s with elems := s.elems ++ [(n, some body)] }
    else none
  | .reserve name => (s.fresh cand name).map fun n => { s with elems := s.elems ++ [(n, none)] }
  | .replace id body =>
    if base ≤ id ∧ s.initial ≤ id ∧ body.all (· < s.next) then
      match s.elems[id - s.initial]? with
      | some (n, _) => some { s with elems := s.elems.set (id - s.initial) (n, some body) }
      | none => none
    else none
  | .add table key methods =>
    if methods.all (· < s.next) then
      some { s with
        data := s.data ++ [methods]
        keys := fun t k => if t = table ∧ k = key then some s.data.length else s.keys t k }
    else none
  | .attempt acts => (runAll cand s.next s acts).map fun s' =>
      { s' with keys := s.keys, data := s'.data.take s.data.length, elems := s'.elems.take s.elems.length }
/-- One after the other. -/
def runAll (cand : Nat → Nat → Nat) (base : Nat) (s : St) : List Act → Option St
  | [] => some s
  | a :: t => match run cand base s a with
    | some s' => runAll cand base s' t
    | none => none
end

/-- How the making of a body ends: with code, with the answer that there is none, or with an error. -/
inductive Outcome
  | built (body : List Nat)
  | refused
  | error

/-- `solve_impl` for a trait that is derived (trait_solver.rs:2945-2953, 3518-3521) with
`SerializeDeriver::derive_impl`, std/serde.rs:165-347; in the same way `Deserialize`, 420-697, and
`Inspect`, std/value.rs:1411-1419: the slot is reserved and the implementation added
(trait_solver.rs:2242-2322), `inner` is done for the parts, then the slot is filled, or all is taken
back, or the error is returned as it is. `true` is an implementation. -/
def solve (cand : Nat → Nat → Nat) (base : Nat) (s : St) (key name : Nat) (inner : List Act) :
    Outcome → Option (Bool × St)
  | o => match s.keys 0 key with
    | some _ => some (true, s)
    | none => match runAll cand base s [.reserve name, .add 0 key [s.next]] with
      | none => none
      | some s1 => match runAll cand s1.next s1 inner with
        | none => none
        | some s2 => match o with
          | .built body => (run cand base s2 (.replace s.next body)).map (true, ·)
          | .refused => some (false, { s2 with
              keys := s.keys, data := s2.data.take s.data.length, elems := s2.elems.take s.elems.length })
          | .error => some (false, s2)

/-- `TraitSolver::commit`, trait_solver.rs:2162-2180; `none` is the panic on a slot without code. The
fuel of the search for a name is the number of definitions and one. -/
def commit (cand : Nat → Nat → Nat) : List (Nat × Option (List Nat)) → List (List Nat) → Defs →
    Option (List (List Nat) × Defs)
  | [], fs, d => some (fs, d)
  | (name, body) :: t, fs, d =>
    match unique (cand name) (fun n => (d.ids n).isSome) (d.data.length + 1) 0, body with
    | some n, some b => commit cand t (fs ++ [b]) (d.insert (fs.length, some n))
    | _, _ => none

end Ferlium.Collector
