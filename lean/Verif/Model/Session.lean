import Verif.Model.Graph

/-!
Model of the module registry of a compiler session: `src/compiler/session.rs` (entries, sources, queries) and
`src/compiler/pipeline.rs` (compiling one module, staleness, cascade).

* The compiler proper (parsing, type inference, code emission: pipeline.rs:183-266) is a parameter `emit`: from the source
  text, the imports, the revisions currently visible in the registry and the id of the module it yields the modules the
  new code depends on, or fails.  A compiled revision (`Rev`) is represented by everything it was made of: the text, the
  imports and the revision of each dependency at that time.
* Module paths are resolved before: a compilation targets a registered id or a path not yet registered, which gets the
  next id (`NamedIndexed`, module/id.rs:216-252).
* Diagnostics, warnings, MIR artifacts and the expression of a compilation are not modelled.
* Results are `Except Fault`: a panic of the host, or running out of the recursion budget of the model, which the code does
  not have (so theorems about `ok` results concern compilations that return).
-/
namespace Ferlium.Session

open Ferlium.Graph (Gr findCycleFrom)

/-- `ModuleRevision` session.rs:95-99, by what it was made of; `placeholder` is the dummy put in the registry during a
compilation, pipeline.rs:97-100. -/
inductive Rev (T U : Type) where
  | placeholder
  | raw (key : Nat) (against : List (Nat × Option (Rev T U)))
  | built (text : T) (uses : U) (against : List (Nat × Option (Rev T U)))

/-- `ModuleSrcInfo` session.rs:85-92. -/
structure SrcInfo (U : Type) where
  sourceId : Nat
  version : Nat
  uses : U

/-- `ModuleEntry` session.rs:116-134.  `failed` is `last_error.is_some()`; `seen` is not in the code: it records which
revisions the latest compilation attempt could see. -/
structure Entry (T U : Type) where
  src : Option (SrcInfo U)
  revision : Option (Rev T U)
  failed : Bool
  deps : List Nat
  attempt : Nat
  stale : Bool
  seen : List (Option (Rev T U))

inductive Fault where
  | panic
  | fuel
  deriving DecidableEq

abbrev Run (α : Type) := Except Fault α

variable {T U : Type}

/-- `direct_deps` pipeline.rs:390-395 and `get_module_reverse_deps` session.rs:647-652. -/
def directDeps (mods : List (Entry T U)) (target : Nat) : List Nat :=
  (List.range mods.length).filter fun id =>
    match mods[id]? with
    | some e => e.deps.contains target
    | none => false

/-- One dependent in the loop of `mark_stale_transitively` pipeline.rs:400-409; the top of the stack is the head. -/
def markOne (s : List (Entry T U) × List Nat) (depId : Nat) : List (Entry T U) × List Nat :=
  match s.1[depId]? with
  | none => s
  | some e => if e.stale then s else (s.1.set depId { e with stale := true }, depId :: s.2)

/-- `mark_stale_transitively` pipeline.rs:397-412. -/
def markStale (mods : List (Entry T U)) (stack : List Nat) : Option (List (Entry T U)) :=
  match stack with
  | [] => some mods
  | id :: stack =>
    let s := (directDeps mods id).foldl markOne (mods, stack)
    markStale s.1 s.2
partial_fixpoint

/-- A recompilation to do: module, source, version and imports. -/
structure Job (U : Type) where
  id : Nat
  sourceId : Nat
  version : Nat
  uses : U

/-- One dependent in `stale_dependents_to_recompile` pipeline.rs:422-434; `mem::take` leaves the default imports. -/
def takeJob [Inhabited U] (s : List (Entry T U) × List (Job U)) (depId : Nat) : List (Entry T U) × List (Job U) :=
  match s.1[depId]? with
  | none => s
  | some e =>
    if e.stale then
      match e.src with
      | none => s
      | some src =>
        (s.1.set depId { e with src := some { src with uses := default } },
          s.2 ++ [⟨depId, src.sourceId, src.version, src.uses⟩])
    else s

/-- `stale_dependents_to_recompile` pipeline.rs:416-436. -/
def staleDependents [Inhabited U] (mods : List (Entry T U)) (target : Nat) : List (Entry T U) × List (Job U) :=
  (directDeps mods target).foldl takeJob (mods, [])

/-- The module graph of `find_module_deps_cycle` pipeline.rs:463-481. -/
def cycleGraph (mods : List (Entry T U)) (id : Nat) (deps : List Nat) (hasOld : Bool) : Gr :=
  mods.zipIdx.map (fun p => if p.2 = id then deps else p.1.deps) ++ (if hasOld then [] else [deps])

/-- The revisions visible to a compilation. -/
def view (mods : List (Entry T U)) : List (Option (Rev T U)) := mods.map Entry.revision

/-- The revision of each dependency. -/
def against (mods : List (Entry T U)) (deps : List Nat) : List (Nat × Option (Rev T U)) :=
  deps.map fun d => (d, (mods[d]?).bind Entry.revision)

/-- Lift a loop that must end without panic. -/
def must {α : Type} : Option α → Run α
  | some a => .ok a
  | none => .error .panic

/-- The failure path `process_compilation_failed` pipeline.rs:140-180 with `update_with_compilation_error`
session.rs:224-238 and `new_with_error` session.rs:186-201. -/
def failed (mods : List (Entry T U)) (id : Nat) (src : SrcInfo U) (old : Option (Rev T U)) (attempt : Nat)
    (seen : List (Option (Rev T U))) : Run (List (Entry T U)) :=
  match mods[id]? with
  | some e => must (markStale (mods.set id
      { e with src := some src, revision := old, failed := true, attempt, stale := true, seen }) [id])
  | none => .ok (mods ++ [⟨some src, none, true, [], attempt, true, seen⟩])

/-- The stale path pipeline.rs:293-331 with `update_with_stale` session.rs:205-221 and `new_stale` session.rs:167-183. -/
def storeStale (mods : List (Entry T U)) (id : Nat) (src : SrcInfo U) (old : Option (Rev T U)) (deps : List Nat)
    (attempt : Nat) (seen : List (Option (Rev T U))) : Run (List (Entry T U)) :=
  match mods[id]? with
  | some _ => must (markStale (mods.set id ⟨some src, old, false, deps, attempt, true, seen⟩) [id])
  | none => .ok (mods ++ [⟨some src, none, false, deps, attempt, true, seen⟩])

/-- The fresh path pipeline.rs:347-367 with `new_fresh_with_artifacts` session.rs:281-297. -/
def storeFresh (mods : List (Entry T U)) (id : Nat) (src : SrcInfo U) (rev : Rev T U) (deps : List Nat) (attempt : Nat)
    (seen : List (Option (Rev T U))) : List (Entry T U) :=
  let e : Entry T U := ⟨some src, some rev, false, deps, attempt, false, seen⟩
  if id < mods.length then mods.set id e else mods ++ [e]

/-- Outcome of compiling one module, before any cascade: `some` when a fresh revision was stored. -/
abbrev Outcome (T U : Type) := List (Entry T U) × Bool

/-- Locate the entry and put the placeholder, pipeline.rs:82-129: id, old revision, attempt number and registry. -/
def openEntry (mods : List (Entry T U)) (target : Option Nat) : Run (Nat × Option (Rev T U) × Nat × List (Entry T U)) :=
  match target with
  | none => .ok (mods.length, none, 0, mods)
  | some id =>
    match mods[id]? with
    | none => .error .panic
    | some e => .ok (id, e.revision, e.attempt + 1, mods.set id { e with revision := some .placeholder })

/-- `compile_with_source_id` pipeline.rs:65-388 up to the cascade.  The `Bool` says whether a fresh revision was
stored. -/
def compileOne (emit : T → U → List (Option (Rev T U)) → Nat → Option (List Nat)) (sources : List T)
    (mods : List (Entry T U)) (target : Option Nat) (sourceId version : Nat) (uses : U) : Run (Nat × Outcome T U) := do
  let text ← must sources[sourceId]?
  let (id, old, attempt, mods) ← openEntry mods target
  let src : SrcInfo U := ⟨sourceId, version, uses⟩
  let mods ← if old.isSome then must (markStale mods [id]) else pure mods
  let seen := view mods
  match emit text uses seen id with
  | none => do
    let mods ← failed mods id src old attempt seen
    pure (id, mods, false)
  | some deps => do
    match ← must (findCycleFrom (cycleGraph mods id deps old.isSome) id) with
    | some cycle =>
      -- the names of the origin and of every module of the cycle are looked up, pipeline.rs:270-277
      if id < mods.length ∧ ∀ v ∈ cycle, v < mods.length then do
        let mods ← failed mods id src old attempt seen
        pure (id, mods, false)
      else throw .panic
    | none =>
      let depEntries ← deps.mapM (fun d => must mods[d]?)
      if depEntries.any Entry.stale then do
        let mods ← storeStale mods id src old deps attempt seen
        pure (id, mods, false)
      else
        pure (id, storeFresh mods id src (.built text uses (against mods deps)) deps attempt seen, true)

/-- `compile_with_source_id` pipeline.rs:65-388 with the cascade of lines 368-384. -/
def compile [Inhabited U] (emit : T → U → List (Option (Rev T U)) → Nat → Option (List Nat)) (sources : List T) :
    Nat → List (Entry T U) → Option Nat → Nat → Nat → U → Run (List (Entry T U))
  | 0, _, _, _, _, _ => .error .fuel
  | fuel + 1, mods, target, sourceId, version, uses => do
    let (id, mods, fresh) ← compileOne emit sources mods target sourceId version uses
    if fresh then
      let (mods, jobs) := staleDependents mods id
      jobs.foldlM (init := mods) fun mods job =>
        compile emit sources fuel mods (some job.id) job.sourceId job.version job.uses
    else pure mods

/-- The session: source texts by id, and the registry. -/
structure State (T U : Type) where
  sources : List T
  mods : List (Entry T U)

/-- `add_or_reuse_module_source` session.rs:1441-1470. -/
def addOrReuse [DecidableEq T] (sources : List T) (current : Option (SrcInfo U)) (text : T) : List T × Nat × Nat :=
  match current with
  | some src =>
    if sources[src.sourceId]? = some text then (sources, src.sourceId, src.version)
    else (sources ++ [text], sources.length, src.version + 1)
  | none => (sources ++ [text], sources.length, 0)

/-- `compile_to_with_ast_inspector` session.rs:1117-1146. -/
def compileTo [DecidableEq T] [Inhabited U] (emit : T → U → List (Option (Rev T U)) → Nat → Option (List Nat))
    (fuel : Nat) (s : State T U) (target : Option Nat) (text : T) (uses : U) : Run (State T U) := do
  let current := (target.bind (fun id => s.mods[id]?)).bind Entry.src
  let (sources, sourceId, version) := addOrReuse s.sources current text
  let mods ← compile emit sources fuel s.mods target sourceId version uses
  pure ⟨sources, mods⟩

/-- `update_module_source` session.rs:674-704; the error results leave the session unchanged. -/
def updateSource [DecidableEq T] [Inhabited U] (emit : T → U → List (Option (Rev T U)) → Nat → Option (List Nat))
    (fuel : Nat) (s : State T U) (id : Nat) (text : T) : Run (State T U) :=
  match s.mods[id]? with
  | none => pure s
  | some e =>
    match e.src with
    | none => pure s
    | some src => do
      let (sources, sourceId, version) := addOrReuse s.sources (some src) text
      let mods ← compile emit sources fuel s.mods (some id) sourceId version src.uses
      pure ⟨sources, mods⟩

/-- `register_module` session.rs:921-928 with `new_fresh_raw_revision` session.rs:142-153. -/
def registerRaw (s : State T U) (key : Nat) (deps : List Nat) : State T U :=
  { s with mods := s.mods ++ [⟨none, some (.raw key (against s.mods deps)), false, deps, 0, false, view s.mods⟩] }

/-- The loop of `get_modules_affected_by` session.rs:656-665; the top of the stack is the head, and `extend` pushes in
order. -/
def affectedLoop (mods : List (Entry T U)) (affected stack : List Nat) : Option (List Nat) :=
  match stack with
  | [] => some affected
  | id :: stack =>
    if affected.contains id then affectedLoop mods affected stack
    else affectedLoop mods (affected ++ [id]) ((directDeps mods id).reverse ++ stack)
partial_fixpoint

/-- `get_modules_affected_by` session.rs:655-666. -/
def affectedBy (mods : List (Entry T U)) (id : Nat) : Option (List Nat) :=
  affectedLoop mods [] (directDeps mods id).reverse

end Ferlium.Session
