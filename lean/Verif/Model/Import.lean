import Mathlib.Tactic

/-!
Model of `use` declarations and of what names mean: `src/desugar/import_resolver.rs` and the lookup of members in
`src/module/mod.rs` and `src/module/module_env.rs`.

Names are numbers, a path is a list of names, and the path of the standard library is `[0]`.  Spans are not modelled, except that
the span of an empty path is missing.  What a name defines is its kind (function, type, trait …) and a number for the
item.  The unsafe items of the standard library (module_env.rs:729-749) are not modelled.
-/
namespace Ferlium.Import

abbrev Path := List Nat

/-- `Def` of the definition table, module/mod.rs: kind, visibility, the item, and the methods if it is a trait. -/
structure Def where
  kind : Nat
  pub : Bool
  item : Nat
  methods : List Nat := []
deriving DecidableEq

/-- `Module` module/mod.rs:555-590: its id and its definition table by name. -/
structure Mod where
  id : Nat
  defs : List (Nat × Def)
deriving DecidableEq

/-- `Modules` compiler/session.rs:372: registered modules by path, with the compiled module if there is one. -/
abbrev Modules := List (Path × Option Mod)

/-- The kind of traits. -/
def traitKind : Nat := 2

/-- `Modules::get_by_name` containers.rs: the entry registered under a path. -/
def Modules.get (ms : Modules) (p : Path) : Option (Option Mod) :=
  (ms.find? (fun e => e.1 == p)).map (·.2)

/-- `get_by_name` followed by `entry.module()`. -/
def Modules.compiled (ms : Modules) (p : Path) : Option Mod :=
  (ms.get p).join

/-- `def_table.get_by_name`. -/
def Mod.get (m : Mod) (x : Nat) : Option Def :=
  (m.defs.find? (fun e => e.1 == x)).map (·.2)

/-- `UseTree` ast/core.rs:86-93. -/
inductive UseTree
  | glob (path : Option Path)
  | group (path : Option Path) (children : List UseTree)
  | name (path : Path)

/-- `Uses` module/uses.rs:25-28.  The hash map of explicit uses is a list by name. -/
structure Uses where
  explicits : List (Nat × Path)
  wildcards : List Path

/-- `Uses::new_with_std` module/uses.rs:31-39. -/
def Uses.withStd : Uses := ⟨[], [[0]]⟩

/-- The errors of import resolution, and its panics. -/
inductive Err
  | notFound (p : Path) (x : Option Nat)
  | conflict (x : Nat)
  | twice (x : Nat)
  | panic
deriving DecidableEq

/-- `module_exists` import_resolver.rs:39-41. -/
def moduleExists (ms : Modules) (p : Path) : Bool := (ms.get p).isSome

/-- `import_exists` import_resolver.rs:29-38, with `public_symbols` module/mod.rs:1808-1812. -/
def importExists (ms : Modules) (p : Path) (x : Nat) : Bool :=
  match ms.compiled p with
  | some m => m.defs.any (fun e => e.2.pub && e.1 == x)
  | none => false

/-- `register_import` import_resolver.rs:158-192.  `seen` are the names introduced so far. -/
def register (x : Nat) (locals seen : List Nat) : Except Err (List Nat) :=
  if x ∈ locals then .error (.conflict x)
  else if x ∈ seen then .error (.twice x)
  else .ok (x :: seen)

/-- `prefill_seen_from_existing_uses` import_resolver.rs:70-84. -/
def prefill (locals : List Nat) : List (Nat × Path) → List Nat → Except Err (List Nat)
  | [], seen => .ok seen
  | (x, _) :: rest, seen =>
    match register x locals seen with
    | .error e => .error e
    | .ok seen => prefill locals rest seen

/-- `split_module_and_symbol` import_resolver.rs:219-224; nothing where it panics. -/
def splitLast (p : Path) : Option (Path × Nat) :=
  match p.getLast? with
  | some x => some (p.dropLast, x)
  | none => none

mutual

/-- `resolve_one` import_resolver.rs:86-154.  The base is the empty path at the root.  In the first case the span of an empty
path is unwrapped, ast/core.rs:68-75. -/
def resolveOne (ms : Modules) (locals : List Nat) (base : Path) :
    UseTree → List Nat × Uses → Except Err (List Nat × Uses)
  | .glob path, (seen, uses) =>
    let full := base ++ path.getD []
    if moduleExists ms full then .ok (seen, { uses with wildcards := uses.wildcards ++ [full] })
    else if full = [] then .error .panic
    else .error (.notFound full none)
  | .group path children, st => resolveAll ms locals (base ++ path.getD []) children st
  | .name path, (seen, uses) =>
    match splitLast (base ++ path) with
    | none => .error .panic
    | some (p, x) =>
      if moduleExists ms p then
        if importExists ms p x then
          match register x locals seen with
          | .error e => .error e
          | .ok seen => .ok (seen, { uses with explicits := (x, p) :: uses.explicits })
        else .error (.notFound p (some x))
      else .error (.notFound p none)

/-- The loops over trees, import_resolver.rs:63-65 and 117-119. -/
def resolveAll (ms : Modules) (locals : List Nat) (base : Path) :
    List UseTree → List Nat × Uses → Except Err (List Nat × Uses)
  | [], st => .ok st
  | t :: rest, st =>
    match resolveOne ms locals base t st with
    | .error e => .error e
    | .ok st => resolveAll ms locals base rest st

end

/-- `resolve_imports` import_resolver.rs:53-68. -/
def resolveImports (ms : Modules) (locals : List Nat) (trees : List UseTree) (uses : Uses) : Except Err Uses :=
  match prefill locals uses.explicits [] with
  | .error e => .error e
  | .ok seen => (resolveAll ms locals [] trees (seen, uses)).map (·.2)

/-- `is_symbol_accessible_from` module/mod.rs:1822-1825. -/
def accessible (m : Mod) (x fromId : Nat) : Bool :=
  match m.get x with
  | some d => m.id == fromId || d.pub
  | none => false

/-- The getter of `get_module_member` module_env.rs:1192-1198 for items of one kind. -/
def getter (k x fromId : Nat) (m : Mod) (need : Bool) : Option Nat :=
  if need && !accessible m x fromId then none
  else match m.get x with
    | some d => if d.kind = k then some d.item else none
    | none => none

/-- The result of a lookup: nothing, an item of the current module (`none`) or of another one, or the error that the name is
imported several times. -/
inductive Found
  | nothing
  | one (m : Option Nat) (item : Nat)
  | ambiguous
deriving DecidableEq

/-- The member which an imported path offers, module/mod.rs:2010-2014 and 2021-2024. -/
def offered (ms : Modules) (k x fromId : Nat) (p : Path) : Option (Nat × Nat) :=
  match ms.compiled p with
  | some m => (getter k x fromId m true).map (fun i => (m.id, i))
  | none => none

/-- The explicit use of a name. -/
def Uses.explicit (u : Uses) (x : Nat) : Option Path :=
  (u.explicits.find? (fun e => e.1 == x)).map (·.2)

/-- `find_member` module/mod.rs:1998-2048. -/
def findMember (ms : Modules) (cur : Mod) (u : Uses) (k x : Nat) : Found :=
  match getter k x cur.id cur false with
  | some i => .one none i
  | none =>
    match (u.explicit x).bind (offered ms k x cur.id) with
    | some (m, i) => .one (some m) i
    | none =>
      match u.wildcards.filterMap (offered ms k x cur.id) with
      | [] => .nothing
      | [(m, i)] => .one (some m) i
      | _ => .ambiguous

/-- `STD_MODULE_ID`. -/
def stdId : Nat := 0

/-- `find_member_by_path` module_env.rs:1202-1240. -/
def findByPath (ms : Modules) (cur : Mod) (u : Uses) (k : Nat) (p : Path) : Found :=
  match p with
  | [x] => findMember ms cur u k x
  | _ =>
    match splitLast p with
    | none => .nothing
    | some (q, x) =>
      if q = [0] ∧ cur.id = stdId then findMember ms cur u k x
      else match offered ms k x cur.id q with
        | some (m, i) => .one (some m) i
        | none => .nothing

/-- `trait_method_in_definition` module_env.rs:1167-1183: the index of the first method of the name. -/
def methodIn (methods : List Nat) (name : Nat) : Option Nat :=
  methods.findIdx? (· == name)

/-- `collect_trait_methods_from_module` module_env.rs:1135-1157.  A trait is identified by its module and its name, which stands
for its index; the result are traits with the index of the method. -/
def collectFrom (m : Mod) (own : Bool) (fromId name : Nat) : List ((Nat × Nat) × Nat) :=
  m.defs.filterMap (fun e =>
    if e.2.kind = traitKind then
      if !own && !accessible m e.1 fromId then none
      else (methodIn e.2.methods name).map (fun j => ((m.id, e.1), j))
    else none)

/-- The explicitly imported traits, module_env.rs:1092-1105. -/
def collectExplicit (ms : Modules) (fromId name : Nat) (e : Nat × Path) : List ((Nat × Nat) × Nat) :=
  match ms.compiled e.2 with
  | some m =>
    match m.get e.1 with
    | some d =>
      if d.kind = traitKind then
        if accessible m e.1 fromId then
          ((methodIn d.methods name).map (fun j => ((m.id, e.1), j))).toList
        else []
      else []
    | none => []
  | none => []

/-- The traits of wildcard imports, module_env.rs:1107-1118. -/
def collectWildcard (ms : Modules) (fromId name : Nat) (p : Path) : List ((Nat × Nat) × Nat) :=
  match ms.compiled p with
  | some m => collectFrom m false fromId name
  | none => []

/-- The result of the lookup of a method: nothing, a trait with the index of the method, or several. -/
inductive Method
  | nothing
  | one (trait : Nat × Nat) (index : Nat)
  | ambiguous
deriving DecidableEq

/-- `sort_by_key` followed by `dedup_by_key`, module_env.rs:1120-1121, keeps one match of each trait; the order only shows in the
message. -/
def dedupTraits : List ((Nat × Nat) × Nat) → List ((Nat × Nat) × Nat)
  | [] => []
  | t :: rest => t :: (dedupTraits rest).filter (fun s => s.1 != t.1)

/-- `get_unqualified_trait_method` module_env.rs:1082-1133. -/
def findMethod (ms : Modules) (cur : Mod) (u : Uses) (name : Nat) : Method :=
  match dedupTraits (collectFrom cur true cur.id name ++ u.explicits.flatMap (collectExplicit ms cur.id name)
      ++ u.wildcards.flatMap (collectWildcard ms cur.id name)) with
  | [] => .nothing
  | [(t, j)] => .one t j
  | _ => .ambiguous

end Ferlium.Import
