import Mathlib.Data.Finset.Sort
import Mathlib.Data.Finset.Dedup

/-!
# Saving and restoring the compiled standard library
(`src/compiler/snapshot/checkpoint.rs`, `src/compiler/snapshot/std_snapshot.rs`)

Functions, subscripts, definitions of types, traits, implementations and nodes are values of an
arbitrary type. How one value is captured and materialized is a parameter (the types in it are the
subject of C90). Names, types and modules are numbers. Checks of the restored nodes against the number
of nodes are left out.
-/

namespace Ferlium.Checkpoint

/-- `TypeAliasEntry`, types/type.rs:1561-1582; `generic` is that it has parameters. -/
structure Alias where
  name : Nat
  generic : Bool
  ty : Nat
  doc : Nat
deriving DecidableEq

/-- `TypeAliases` without the names of native types, types/type.rs:1550-1558. -/
structure Aliases where
  entries : List Alias
  names : Nat → Option Nat

/-- `TypeAliases::set`, types/type.rs:1560-1582. -/
def Aliases.set (t : Aliases) (a : Alias) : Aliases :=
  { entries := t.entries ++ [a]
    names := if a.generic then t.names else fun ty => if ty = a.ty then some a.name else t.names ty }

/-- `NamedIndexed`, module/id.rs:200-204. -/
structure Defs where
  data : List (Nat × Option Nat)
  ids : Nat → Option Nat

/-- `NamedIndexed::insert` and `insert_anonymous`, module/id.rs:216-228. -/
def Defs.insert (t : Defs) (d : Nat × Option Nat) : Defs :=
  { data := t.data ++ [d]
    ids := match d.2 with
      | some name => fun n => if n = name then some t.data.length else t.ids n
      | none => t.ids }

/-- `Module`, module/mod.rs:555-581. `rest` is what source code does not change: the path, the uses,
the unsafe items and the names of native types. An element of `projections` is a key with its entry. -/
structure Module (V : Type) where
  functions : List V
  subscripts : List V
  aliases : Aliases
  typeDefs : List V
  traits : List V
  defs : Defs
  projections : Finset Nat
  impls : V
  hir : List V
  deps : Finset Nat
  rest : V

/-- `ModuleCheckpointShape`, checkpoint.rs:15-23. -/
structure Shape where
  functions : Nat
  subscripts : Nat
  aliases : Nat
  typeDefs : Nat
  traits : Nat
  defs : Nat
  hir : Nat
deriving DecidableEq

/-- `ModuleCheckpointShape::of`, checkpoint.rs:26-36. -/
def Shape.of {V : Type} (m : Module V) : Shape :=
  { functions := m.functions.length
    subscripts := m.subscripts.length
    aliases := m.aliases.entries.length
    typeDefs := m.typeDefs.length
    traits := m.traits.length
    defs := m.defs.data.length
    hir := m.hir.length }

/-- How values are captured and materialized, and which functions are native. -/
structure Codec (V : Type) where
  S : Type
  A : Type
  enc : V → Option S
  dec : S → Option V
  encAlias : Alias → Option A
  decAlias : A → Option Alias
  encProj : Nat → Option S
  decProj : S → Option Nat
  native : V → Bool
  offer : Module V → Nat

/-- `SnapshotModuleCheckpoint`, checkpoint.rs:46-59. -/
structure Saved {V : Type} (C : Codec V) where
  before : Shape
  after : Shape
  functions : List C.S
  subscripts : List C.S
  aliases : List C.A
  typeDefs : List C.S
  traits : List C.S
  defs : List (Nat × Option Nat)
  projections : List C.S
  impls : C.S
  hir : List C.S
  deps : List Nat

/-- `validate_monotonic`, checkpoint.rs:218-236. -/
def monotonic (a b : Shape) : Bool :=
  a.functions ≤ b.functions && a.subscripts ≤ b.subscripts && a.aliases ≤ b.aliases &&
  a.typeDefs ≤ b.typeDefs && a.traits ≤ b.traits && a.defs ≤ b.defs && a.hir ≤ b.hir

/-- `SnapshotModuleCheckpoint::capture`, checkpoint.rs:62-138. The order of the projections is that of
their numbers. -/
def capture {V : Type} (C : Codec V) (before : Shape) (m : Module V) : Option (Saved C) := do
  if !monotonic before (Shape.of m) then none
  let functions ← (m.functions.drop before.functions).mapM fun f => if C.native f then none else C.enc f
  let subscripts ← (m.subscripts.drop before.subscripts).mapM C.enc
  let aliases ← (m.aliases.entries.drop before.aliases).mapM C.encAlias
  let typeDefs ← m.typeDefs.mapM C.enc
  let traits ← (m.traits.drop before.traits).mapM C.enc
  let projections ← (m.projections.sort (· ≤ ·)).mapM C.encProj
  let impls ← C.enc m.impls
  let hir ← (m.hir.drop before.hir).mapM C.enc
  some ⟨before, Shape.of m, functions, subscripts, aliases, typeDefs, traits,
    m.defs.data.drop before.defs, projections, impls, hir, m.deps.sort (· ≤ ·)⟩

/-- `SnapshotModuleCheckpoint::apply`, checkpoint.rs:140-215, with `append_to`, snapshot/hir.rs:473-491.
After an error the changed module is not used. -/
def apply {V : Type} {C : Codec V} (s : Saved C) (m : Module V) : Option (Module V) := do
  if Shape.of m ≠ s.before then none
  if m.hir.length ≠ s.before.hir ∨ s.after.hir ≠ s.before.hir + s.hir.length then none
  let hir ← s.hir.mapM C.dec
  let functions ← s.functions.mapM C.dec
  let subscripts ← s.subscripts.mapM C.dec
  let aliases ← s.aliases.mapM C.decAlias
  let typeDefs ← s.typeDefs.mapM C.dec
  let traits ← s.traits.mapM C.dec
  let projections ← s.projections.mapM C.decProj
  let impls ← C.dec s.impls
  let m' : Module V :=
    { functions := m.functions ++ functions
      subscripts := m.subscripts ++ subscripts
      aliases := aliases.foldl Aliases.set m.aliases
      typeDefs := typeDefs
      traits := m.traits ++ traits
      defs := s.defs.foldl Defs.insert m.defs
      projections := projections.toFinset
      impls := impls
      hir := m.hir ++ hir
      deps := s.deps.toFinset
      rest := m.rest }
  if Shape.of m' ≠ s.after then none
  some m'

/-- What the compilation of source code does to the module it extends. Tables that are saved whole may
become anything. -/
inductive Op (V : Type)
  | function (f : V)
  | setFunction (i : Nat) (f : V)
  | subscript (s : V)
  | setAlias (a : Alias)
  | typeDefs (l : List V)
  | trait (t : V)
  | define (d : Nat × Option Nat)
  | projections (s : Finset Nat)
  | impls (v : V)
  | node (h : V)
  | deps (s : Finset Nat)

/-- The effect of an operation. -/
def Op.run {V : Type} (m : Module V) : Op V → Module V
  | function f => { m with functions := m.functions ++ [f] }
  | setFunction i f => { m with functions := m.functions.set i f }
  | subscript s => { m with subscripts := m.subscripts ++ [s] }
  | setAlias a => { m with aliases := m.aliases.set a }
  | typeDefs l => { m with typeDefs := l }
  | trait t => { m with traits := m.traits ++ [t] }
  | define d => { m with defs := m.defs.insert d }
  | projections s => { m with projections := s }
  | impls v => { m with impls := v }
  | node h => { m with hir := m.hir ++ [h] }
  | deps s => { m with deps := s }

/-- The steps of `build_std`, std/mod.rs:74-96: registrations of native code, and source code. -/
inductive Step (V : Type)
  | native (f : Module V → Module V)
  | source (compile : Module V → List (Op V))

/-- `CompilingStdSourceLoader`, std/mod.rs:60-72. -/
def build {V : Type} : List (Step V) → Module V → Module V
  | [], m => m
  | .native f :: t, m => build t (f m)
  | .source c :: t, m => build t ((c m).foldl Op.run m)

/-- `build_std` with `RecordingLoader`, std_snapshot.rs:50-74. The flag is that there was an error. -/
def record {V : Type} (C : Codec V) : List (Step V) → Module V × List (Saved C) × Bool →
    Module V × List (Saved C) × Bool
  | [], s => s
  | .native f :: t, (m, cs, e) => record C t (f m, cs, e)
  | .source c :: t, (m, cs, e) =>
    if e then record C t (m, cs, e)
    else
      let m' := (c m).foldl Op.run m
      match capture C (Shape.of m) m' with
      | some s => record C t (m', cs ++ [s], false)
      | none => record C t (m', cs, true)

/-- The payload of a snapshot and the part of its header that is compared, std_snapshot.rs:15-20. -/
structure Snapshot {V : Type} (C : Codec V) where
  offer : Nat
  checkpoints : List (Saved C)

/-- `CompiledStdSnapshot::capture`, std_snapshot.rs:140-195: the snapshot, if any, and the module, which
is handed out in both cases (34-39). -/
def captureAll {V : Type} (C : Codec V) (steps : List (Step V)) (m : Module V) :
    Option (Snapshot C) × Module V :=
  match record C steps (m, [], false) with
  | (m', cs, e) => (if e || cs.length != 3 then none else some ⟨C.offer m', cs⟩, m')

/-- `build_std` with `RestoringLoader`, std_snapshot.rs:100-124. -/
def replay {V : Type} {C : Codec V} : List (Step V) → Module V × List (Saved C) × Bool →
    Module V × List (Saved C) × Bool
  | [], s => s
  | .native f :: t, (m, cs, e) => replay t (f m, cs, e)
  | .source _ :: t, (m, cs, e) =>
    if e then replay t (m, cs, e)
    else match cs with
      | [] => replay t (m, [], true)
      | s :: cs => match apply s m with
        | some m' => replay t (m', cs, false)
        | none => replay t (m, cs, true)

/-- `CompiledStdSnapshot::restore`, std_snapshot.rs:197-225. -/
def restore {V : Type} {C : Codec V} (snap : Snapshot C) (steps : List (Step V)) (m : Module V) :
    Option (Module V) :=
  match replay steps (m, snap.checkpoints, false) with
  | (m', cs, e) => if e || !cs.isEmpty || snap.offer != C.offer m' then none else some m'

end Ferlium.Checkpoint
