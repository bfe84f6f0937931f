import Verif.Model.Graph

/-!
# The table of types

Types are handles into a table; two types are the same exactly when their handles are.  Types that
refer to each other in a cycle are stored together, as a "world" of their own.

Models `/repo/src/types/type.rs` 2389-2501 (inner types), 2520-2537, 2567-2575, 2939-3175 (comparing
a group of types with a stored world) and 3188-3454 (the table and `insert_types`).  The strongly
connected components are those of `Verif.Model.Graph`.

A kind is kept as its head, with all that is not a type, and the list of its inner types in the order
of `for_each_inner_type`.  Left out: the summaries of free variables that are stored along (they do
not take part in comparisons, 2913-2924), and the lock around the table.
-/

namespace Ferlium.Intern

/-- `Type`, type.rs 1303-1312: a reference within a batch of kinds that is being stored, or into the
table. -/
inductive Ref where
  | loc (i : Nat)
  | glob (w i : Nat)
deriving DecidableEq, Repr

/-- `TypeKind` without the inner types.  The mutabilities and effects are numbers. -/
inductive Head where
  | var (x : Nat)
  | native (b : Nat)
  | variant (names : List String)
  | tuple
  | record (names : List String)
  | fn (muts : List Nat) (effects : List Nat)
  | subscript (muts : List Nat) (refMember mutMember : Option (List Nat))
  | named (definition : Nat) (effects : List (List Nat))
  | never
deriving DecidableEq, Repr

/-- `TypeKind`. -/
structure Kind where
  head : Head
  kids : List Ref
deriving DecidableEq, Repr

/-- Inserts into a sorted list, before equal elements. -/
def insertBy {α : Type} (le : α → α → Bool) (a : α) : List α → List α
  | [] => [a]
  | b :: rest => if le a b then a :: b :: rest else b :: insertBy le a rest

/-- A stable sort (`sort_by`, `sort_by_key`). -/
def sortBy {α : Type} (le : α → α → Bool) : List α → List α
  | [] => []
  | a :: rest => insertBy le a (sortBy le rest)

/-- Sorts the named inner types. -/
def sortFields (names : List String) (kids : List Ref) : List (String × Ref) :=
  sortBy (fun a b => decide (a.1 ≤ b.1)) (names.zip kids)

/-- `normalize`, type.rs 2567-2575. -/
def Kind.normalize (k : Kind) : Kind :=
  match k.head with
  | .variant names =>
    let fs := sortFields names k.kids
    ⟨.variant (fs.map (·.1)), fs.map (·.2)⟩
  | .record names =>
    let fs := sortFields names k.kids
    ⟨.record (fs.map (·.1)), fs.map (·.2)⟩
  | _ => k

/-- `TypeUniverse`, type.rs 3188-3196: the world of index 0, the worlds from index 1 on, and the
cache. -/
structure Universe where
  main : List Kind
  recs : List (List Kind)
  cache : List (List Kind × Nat × List Nat)
deriving DecidableEq, Repr

/-- `new_empty`, type.rs 3199-3204. -/
def Universe.new : Universe := ⟨[], [], []⟩

/-- A world. -/
def Universe.world (U : Universe) : Nat → List Kind
  | 0 => U.main
  | w + 1 => (U.recs[w]?).getD []

/-- `get_interned`, type.rs 3464-3471; `none` is its panic. -/
def Universe.look (U : Universe) : Ref → Option Kind
  | .loc _ => none
  | .glob w i => (U.world w)[i]?

/-- `get_full`: the index in a set that keeps the order of insertion. -/
def indexOf {α : Type} [DecidableEq α] (a : α) : List α → Option Nat
  | [] => none
  | b :: rest => if b = a then some 0 else (indexOf a rest).map (· + 1)

/-- `recursive_worlds_if_no_local_refs`, type.rs 2479-2499: `last` is the last world found. -/
def worldsToCheck : Option Nat → List Ref → Option (List Nat)
  | _, [] => some []
  | _, .loc _ :: _ => none
  | last, .glob 0 _ :: rest => worldsToCheck last rest
  | last, .glob (w + 1) _ :: rest =>
    (worldsToCheck (some (w + 1)) rest).map fun ws => if last = some (w + 1) then ws else (w + 1) :: ws

/-- The loop over the recursive worlds, type.rs 3219-3230. -/
def findIn (U : Universe) (k : Kind) : List Nat → Option Ref
  | [] => none
  | w :: ws =>
    match indexOf k (U.world w) with
    | some i => some (.glob w i)
    | none => findIn U k ws

/-- `insert_non_recursive_kind`, type.rs 3210-3248. -/
def insertNonRecursive (U : Universe) (k : Kind) (ws : List Nat) : Universe × Ref :=
  match findIn U k ws with
  | some r => (U, r)
  | none =>
    match indexOf k U.main with
    | some i => (U, .glob 0 i)
    | none => ({ U with main := U.main ++ [k] }, .glob 0 U.main.length)

/-! ## Comparing with a stored world -/

/-- The comparison of everything but inner types in `type_kinds_match_with_mapping`, type.rs
3086-3133: the effect arguments of a named type are not compared (3127-3130). -/
def headMatches : Head → Head → Bool
  | .named d _, .named d' _ => d = d'
  | a, b => a = b

/-- `type_matches_with_mapping`, type.rs 3162-3175. -/
def refMatches (w : Nat) (map : List (Option Nat)) : Ref → Ref → Bool
  | .loc j, e =>
    match map[j]? with
    | some (some m) => e = .glob w m
    | _ => false
  | r, e => r = e

/-- `type_slices_match_with_mapping`, type.rs 3135-3145. -/
def kidsMatch (w : Nat) (map : List (Option Nat)) : List Ref → List Ref → Bool
  | [], [] => true
  | r :: rs, e :: es => refMatches w map r e && kidsMatch w map rs es
  | _, _ => false

/-- `type_kinds_match_with_mapping`, type.rs 3086-3133. -/
def kindMatches (w : Nat) (map : List (Option Nat)) (k e : Kind) : Bool :=
  headMatches k.head e.head && kidsMatch w map k.kids e.kids

/-- The loop of `verify_mapping`, type.rs 3071-3081. -/
def verifyAll (world : List Kind) (w : Nat) (map : List (Option Nat)) :
    List Kind → List (Option Nat) → Bool
  | k :: ks, some m :: ms =>
    (match world[m]? with
     | some e => kindMatches w map k e
     | none => false) && verifyAll world w map ks ms
  | _ :: _, none :: _ => false
  | _, _ => true

/-- `verify_mapping`, type.rs 3060-3084. -/
def verifyMapping (lw world : List Kind) (w : Nat) (map : List (Option Nat)) : Bool :=
  map.length == lw.length && verifyAll world w map lw map

/-- `types_could_match`, type.rs 3033-3056. -/
def couldMatch (a b : Kind) : Bool :=
  match a.head, b.head with
  | .never, .never => true
  | .var _, .var _ => true
  | .tuple, .tuple => a.kids.length == b.kids.length
  | .record n, .record n' => n == n'
  | .variant n, .variant n' => n == n'
  | .fn _ _, .fn _ _ => true
  | .subscript m r u, .subscript m' r' u' =>
    m.length == m'.length && r.isSome == r'.isSome && u.isSome == u'.isSome
  | .native n, .native n' => n == n' && a.kids.length == b.kids.length
  | .named d _, .named d' _ => d == d'
  | _, _ => false

/-- `search`, type.rs 2972-3014. -/
def search (lw world : List Kind) (w : Nat) :
    List (Nat × List Nat) → List (Option Nat) → List Nat → Option (List (Option Nat))
  | [], map, _ => if verifyMapping lw world w map then some map else none
  | (i, possible) :: rest, map, used =>
    possible.findSome? fun e =>
      if e ∈ used then none else search lw world w rest (map.set i (some e)) (e :: used)

/-- The candidates for a kind, type.rs 2952-2960. -/
def possible (world : List Kind) (k : Kind) : List Nat :=
  (List.range world.length).filter fun e =>
    match world[e]? with
    | some k' => couldMatch k k'
    | none => false

/-- The candidates, type.rs 2950-2962. -/
def candidates (world : List Kind) : Nat → List Kind → List (Nat × List Nat)
  | _, [] => []
  | i, k :: ks => (i, possible world k) :: candidates world (i + 1) ks

/-- `find_world_isomorphism`, type.rs 2939-3029. -/
def findIso (lw world : List Kind) (w : Nat) : Option (List Nat) :=
  let cs := candidates world 0 lw
  if cs.any (fun c => c.2.isEmpty) then none
  else
    (search lw world w (sortBy (fun a b => decide (a.2.length ≤ b.2.length)) cs)
      (List.replicate lw.length none) []).map (·.map (·.getD 0))

/-- The loop over the worlds, type.rs 3384-3416: from index `w` on. -/
def findWorld (lw : List Kind) : Nat → List (List Kind) → Option (Nat × List Nat)
  | _, [] => none
  | w, world :: rest =>
    if world.length = lw.length then
      match findIso lw world w with
      | some map => some (w, map)
      | none => findWorld lw (w + 1) rest
    else findWorld lw (w + 1) rest

/-! ## Storing a batch -/

/-- Applies a function to the inner types (`for_each_inner_type_mut`, type.rs 2431-2477). -/
def Kind.mapKids (f : Ref → Ref) (k : Kind) : Kind := ⟨k.head, k.kids.map f⟩

/-- Type.rs 3293-3299: inner types which are already stored. -/
def resolve (resolved : List (Option Ref)) : Ref → Ref
  | .loc j =>
    match resolved[j]? with
    | some (some r) => r
    | _ => .loc j
  | r => r

/-- `substitute_locals`, type.rs 2523-2537, with the table of 3323-3326; `none` is the panic. -/
def toLocal (ids : List Nat) : Ref → Option Ref
  | .loc j => (indexOf j ids).map .loc
  | r => some r

/-- `toLocal` for all inner types. -/
def toLocals (ids : List Nat) : List Ref → Option (List Ref)
  | [] => some []
  | r :: rs =>
    match toLocal ids r, toLocals ids rs with
    | some r', some rs' => some (r' :: rs')
    | _, _ => none

/-- `local_world`, type.rs 3327-3334. -/
def localWorld (ids : List Nat) : List Kind → Option (List Kind)
  | [] => some []
  | k :: ks =>
    match toLocals ids k.kids, localWorld ids ks with
    | some kids, some ks' => some (⟨k.head, kids⟩ :: ks')
    | _, _ => none

/-- Type.rs 3431-3435. -/
def toGlobal (w : Nat) : Ref → Ref
  | .loc j => .glob w j
  | r => r

/-- Collecting into a set that keeps the order of insertion (type.rs 3440-3444): what is already
there is not inserted again. -/
def dedup {α : Type} [DecidableEq α] : List α → List α → List α
  | seen, [] => seen
  | seen, a :: rest => if a ∈ seen then dedup seen rest else dedup (seen ++ [a]) rest

/-- `local_to_world.get`. -/
def cached (U : Universe) (lw : List Kind) : Option (Nat × List Nat) :=
  (U.cache.find? (·.1 == lw)).map (·.2)

/-- `mark_indices_as_resolved` with `global_world_indices`, type.rs 3346-3368. -/
def mark (w : Nat) : List Nat → List Nat → List (Option Ref) → List (Option Ref)
  | i :: ids, m :: ms, resolved => mark w ids ms (resolved.set i (some (.glob w m)))
  | _, _, resolved => resolved

/-- The world for a group of recursive kinds, type.rs 3370-3445: known, like a stored one, or new. -/
def placeWorld (U : Universe) (lw : List Kind) : Universe × Nat × List Nat :=
  match cached U lw with
  | some wm => (U, wm)
  | none =>
    match findWorld lw 1 U.recs with
    | some wm => ({ U with cache := (lw, wm) :: U.cache }, wm)
    | none =>
      let w := U.recs.length + 1
      let wm := (w, List.range lw.length)
      (⟨U.main, U.recs ++ [dedup [] (lw.map (·.mapKids (toGlobal w)))], (lw, wm) :: U.cache⟩, wm)

/-- The kind at an index of the batch, with what is already stored. -/
def member (kinds : List Kind) (resolved : List (Option Ref)) (i : Nat) : Kind :=
  ((kinds[i]?).getD ⟨.never, []⟩).mapKids (resolve resolved)

/-- Type.rs 3302-3311: the group is one kind without reference to itself. -/
def plain (kinds : List Kind) (resolved : List (Option Ref)) : List Nat → Option (Nat × List Nat)
  | [i] => (worldsToCheck none (member kinds resolved i).kids).map fun ws => (i, ws)
  | _ => none

/-- One strongly connected component, type.rs 3290-3451.  `le` is `local_cmp`.  `none`: a panic. -/
def insertScc (le : Kind → Kind → Bool) (U : Universe) (kinds : List Kind)
    (resolved : List (Option Ref)) (scc : List Nat) : Option (Universe × List (Option Ref)) :=
  match plain kinds resolved scc with
  | some (i, ws) =>
    let (U', r) := insertNonRecursive U (member kinds resolved i) ws
    some (U', resolved.set i (some r))
  | none =>
    let ids := sortBy (fun a b => le (member kinds resolved a) (member kinds resolved b)) scc
    match localWorld ids (ids.map (member kinds resolved)) with
    | none => none
    | some lw =>
      let (U', w, map) := placeWorld U lw
      some (U', mark w ids map resolved)

/-- All components, type.rs 3288-3452. -/
def insertSccs (le : Kind → Kind → Bool) (kinds : List Kind) :
    Universe → List (Option Ref) → List (List Nat) → Option (Universe × List (Option Ref))
  | U, resolved, [] => some (U, resolved)
  | U, resolved, scc :: rest =>
    match insertScc le U kinds resolved scc with
    | none => none
    | some (U', resolved') => insertSccs le kinds U' resolved' rest

/-- `neighbors`, type.rs 2882-2890. -/
def neighbours (k : Kind) : List Nat :=
  k.kids.filterMap fun r =>
    match r with
    | .loc j => some j
    | _ => none

/-- Batches without references within the batch, type.rs 3254-3267: from the last kind to the
first. -/
def insertPlain : Universe → List (Kind × List Nat) → Universe × List Ref
  | U, [] => (U, [])
  | U, (k, ws) :: rest =>
    let (U', rs) := insertPlain U rest
    let (U'', r) := insertNonRecursive U' k ws
    (U'', r :: rs)

/-- All kinds with their recursive worlds, if no kind has a reference within the batch. -/
def allPlain : List Kind → Option (List (Kind × List Nat))
  | [] => some []
  | k :: ks =>
    match worldsToCheck none k.kids, allPlain ks with
    | some ws, some rest => some ((k, ws) :: rest)
    | _, _ => none

/-- `insert_types` after the normalisation, type.rs 3254-3454.  `order` is the order of the hash
sets in the topological sort.  `none`: a panic. -/
def insertNormal (order : List Nat → List Nat) (le : Kind → Kind → Bool) (U : Universe)
    (kinds : List Kind) : Option (Universe × List Ref) :=
  match allPlain kinds with
  | some ks => some (insertPlain U ks)
  | none =>
    (if kinds.length = 1 then some [[0]]
     else Graph.componentsCalleesFirst order (kinds.map neighbours)).bind fun sccs =>
      (insertSccs le kinds U (List.replicate kinds.length none) sccs).map fun (U', resolved) =>
        (U', resolved.map (·.getD (.loc 0)))

/-- `insert_types`, type.rs 3250-3454 (`store_types`, 3657-3662). -/
def insertTypes (order : List Nat → List Nat) (le : Kind → Kind → Bool) (U : Universe)
    (kinds : List Kind) : Option (Universe × List Ref) :=
  insertNormal order le U (kinds.map Kind.normalize)

/-! ## Specification -/

/-- A type unfolded to some depth. -/
inductive Tree where
  | cut
  | missing
  | node (head : Head) (kids : List Tree)

/-- The type of a reference, unfolded to depth `n`. -/
def unfold (look : Ref → Option Kind) : Nat → Ref → Tree
  | 0, _ => .cut
  | n + 1, r =>
    match look r with
    | none => .missing
    | some k => .node k.head (k.kids.map (unfold look n))

/-- Two references mean the same type: their infinite unfoldings are equal. -/
def Same (look look' : Ref → Option Kind) (r r' : Ref) : Prop :=
  ∀ n, unfold look n r = unfold look' n r'

/-- What references of a batch mean. -/
def batch (U : Universe) (kinds : List Kind) : Ref → Option Kind
  | .loc i => kinds[i]?
  | .glob w i => U.look (.glob w i)

/-- A reference occurs in the definition of another. -/
def Uses (look : Ref → Option Kind) (r r' : Ref) : Prop :=
  ∃ k, look r = some k ∧ r' ∈ k.kids

/-- … or in a definition that occurs there, and so on. -/
inductive Reaches (look : Ref → Option Kind) : Ref → Ref → Prop
  | one {r r'} : Uses look r r' → Reaches look r r'
  | more {r r' r''} : Reaches look r r' → Uses look r' r'' → Reaches look r r''

/-- A batch of kinds that may be stored:
* all references exist;
* the effect arguments of named types depend on the definition only (for example, there are none);
* a type that refers to itself does not refer to a second copy of itself. -/
structure Batch (eff : Nat → List (List Nat)) (U : Universe) (kinds : List Kind) : Prop where
  exist : ∀ k ∈ kinds, ∀ r ∈ k.kids, ∃ k', batch U kinds r = some k'
  effects : ∀ k ∈ kinds, ∀ d e, k.head = .named d e → e = eff d
  single : ∀ i r, Reaches (batch U kinds) (.loc i) (.loc i) → Reaches (batch U kinds) (.loc i) r →
    Same (batch U kinds) (batch U kinds) (.loc i) r → r = .loc i

end Ferlium.Intern
