/-
Model of the table of specialised functions the optimizer appends to a module: renumbering, pruning and
sharing.

Sources in /repo: src/mir/pass/specialization_table.rs (32-132), src/mir/pass/prune_specializations.rs
(46-92), src/mir/pass/share_specializations.rs (51-151), src/mir/pass/monomorphize.rs (`SELF_REFERENCE`
109, `self_reference` 118-129, `structure_digest` 146-186, `structurally_identical` 224-250),
src/mir/function.rs (`visit_function_ids` 272-306), src/mir/edit.rs (`visit_function_ids_mut` 471-486).

Simplifications: a MIR body is its function operands, the function ids held by its `build_closure`
operations, and everything else (`shape`, compared as a whole; the name is not part of it, as in
`structurally_identical`).  A panic (index out of bounds, `usize::MAX` used as an index) is `none`.
`structure_digest` is a parameter; the theorems hold for every digest.
-/

namespace Ferlium.SpecTable

/-- `FunctionId`. -/
structure Id where
  module_ : Nat
  function : Nat
deriving DecidableEq

/-- A MIR body (`mir::Function`), reduced as described above. -/
structure Body (S : Type) where
  shape : S
  operands : List Id
  closures : List Id

/-- The ids `visit_function_ids` visits, in order, src/mir/function.rs 272-306. -/
def Body.ids {S : Type} (b : Body S) : List Id := b.operands ++ b.closures

/-- `Specialization`, src/compiler/artifacts.rs 122-129. -/
structure Spec (S : Type) where
  original : Id
  body : Body S

/-- `SpecializationTable`, src/mir/pass/specialization_table.rs 32-35. -/
structure Table where
  module_ : Nat
  first : Nat

/-- `index_of`, src/mir/pass/specialization_table.rs 50-54. -/
def Table.indexOf (t : Table) (id : Id) : Option Nat :=
  if id.module_ = t.module_ then (if t.first ≤ id.function then some (id.function - t.first) else none)
  else none

/-- `id_of`, src/mir/pass/specialization_table.rs 56-61. -/
def Table.idOf (t : Table) (index : Nat) : Id := ⟨t.module_, t.first + index⟩

/-- The loop filling `compacted`, src/mir/pass/specialization_table.rs 94-101; `none` is `usize::MAX`. -/
def compactLoop : List (Option Nat) → Nat → Nat → List (Option Nat)
  | [], _, _ => []
  | k :: ks, index, retained =>
    if k = some index then some retained :: compactLoop ks (index + 1) (retained + 1)
    else none :: compactLoop ks (index + 1) retained

/-- `remap`, src/mir/pass/specialization_table.rs 102-110. -/
def remap (t : Table) (kept compacted : List (Option Nat)) (id : Id) : Option Id :=
  match t.indexOf id with
  | some index =>
    match kept[index]? with
    | some (some into) =>
      match compacted[into]? with
      | some (some c) => some (t.idOf c)
      | _ => none
    | some none => some id
    | none => none
  | none => some id

/-- `rewrite_body`, src/mir/pass/specialization_table.rs 127-132. -/
def rewriteBody {S : Type} (f : Id → Option Id) (b : Body S) : Option (Body S) := do
  let operands ← b.operands.mapM f
  let closures ← b.closures.mapM f
  return ⟨b.shape, operands, closures⟩

/-- The loop over the declared functions, src/mir/pass/specialization_table.rs 112-116. -/
def rewriteFunctions {S : Type} (f : Id → Option Id) (l : List (Option (Body S))) :
    Option (List (Option (Body S))) :=
  l.mapM fun slot =>
    match slot with
    | some b => (rewriteBody f b).map some
    | none => some none

/-- The filter and map of the specializations, src/mir/pass/specialization_table.rs 117-125. -/
def rewriteSpecs {S : Type} (f : Id → Option Id) (kept : List (Option Nat)) :
    List (Spec S) → Nat → Option (List (Spec S))
  | [], _ => some []
  | s :: rest, index =>
    if kept[index]? = some (some index) then do
      let b ← rewriteBody f s.body
      let tail ← rewriteSpecs f kept rest (index + 1)
      return ⟨s.original, b⟩ :: tail
    else rewriteSpecs f kept rest (index + 1)

/-- The module tables: declared functions (`none` for native ones) and specializations. -/
structure Mod (S : Type) where
  functions : List (Option (Body S))
  specs : List (Spec S)

/-- `rewrite`, src/mir/pass/specialization_table.rs 77-126; `kept` is `survives` on all indices. -/
def rewrite {S : Type} (t : Table) (kept : List (Option Nat)) (m : Mod S) : Option (Mod S) :=
  if kept = (List.range kept.length).map some then some m
  else do
    let f := remap t kept (compactLoop kept 0 0)
    let functions ← rewriteFunctions f m.functions
    let specs ← rewriteSpecs f kept m.specs 0
    return ⟨functions, specs⟩

/-- `SpecializationTable::new`, src/mir/pass/specialization_table.rs 39-44. -/
def Mod.table {S : Type} (module_ : Nat) (m : Mod S) : Table := ⟨module_, m.functions.length⟩

/-! ### Pruning -/

/-- The state of `reachable`: the flags and the worklist (last pushed first). -/
structure Live where
  live : List Bool
  work : List Nat

/-- `discover`, src/mir/pass/prune_specializations.rs 73-80. -/
def discover (t : Table) (st : Live) (id : Id) : Option Live :=
  match t.indexOf id with
  | none => some st
  | some index =>
    match st.live[index]? with
    | none => none
    | some true => some st
    | some false => some ⟨st.live.set index true, index :: st.work⟩

/-- The `while let` loop, src/mir/pass/prune_specializations.rs 85-89. -/
def drain {S : Type} (t : Table) (specs : List (Spec S)) (st : Live) : Option Live :=
  match st.work with
  | [] => some st
  | index :: work =>
    match specs[index]? with
    | none => none
    | some s => (s.body.ids.foldlM (discover t) ⟨st.live, work⟩) >>= drain t specs
partial_fixpoint

/-- One declared function, src/mir/pass/prune_specializations.rs 82-84. -/
def discoverSlot {S : Type} (t : Table) (st : Live) (slot : Option (Body S)) : Option Live :=
  match slot with
  | some b => b.ids.foldlM (discover t) st
  | none => some st

/-- `reachable`, src/mir/pass/prune_specializations.rs 66-91. -/
def reachable {S : Type} (t : Table) (m : Mod S) : Option (List Bool) := do
  let st ← m.functions.foldlM (discoverSlot t) ⟨List.replicate m.specs.length false, []⟩
  let st ← drain t m.specs st
  return st.live

/-- `live[index].then_some(index)`, src/mir/pass/prune_specializations.rs 59-61. -/
def keptOfLive : List Bool → Nat → List (Option Nat)
  | [], _ => []
  | b :: bs, index => (if b then some index else none) :: keptOfLive bs (index + 1)

/-- `drop_unreachable_specializations`, src/mir/pass/prune_specializations.rs 46-63. -/
def prune {S : Type} (module_ : Nat) (m : Mod S) : Option (Mod S × Nat) :=
  if m.specs.isEmpty then some (m, 0)
  else do
    let t := m.table module_
    let live ← reachable t m
    let dropped := live.countP (fun b => !b)
    let m' ← rewrite t (keptOfLive live 0) m
    return (m', dropped)

/-! ### Sharing -/

/-- `resolve`, src/mir/pass/share_specializations.rs 146-151. -/
def resolve (merged : List Nat) (index : Nat) : Option Nat :=
  match merged[index]? with
  | none => none
  | some next => if next ≠ index then resolve merged next else some index
partial_fixpoint

/-- `SELF_REFERENCE`, src/mir/pass/monomorphize.rs 109. -/
def selfReference : Nat := 2 ^ 32 - 2

/-- `self_reference`, src/mir/pass/monomorphize.rs 118-129. -/
def normalizeSelf (own id : Id) : Id := if id = own then ⟨own.module_, selfReference⟩ else id

/-- `canonical`, src/mir/pass/share_specializations.rs 130-143. -/
def canonical (t : Table) (merged : List Nat) (own : Nat) (id : Id) : Option Id :=
  match t.indexOf id with
  | some index => (resolve merged index).map fun s => normalizeSelf (t.idOf own) (t.idOf s)
  | none => some (normalizeSelf (t.idOf own) id)

/-- `structurally_identical`, src/mir/pass/monomorphize.rs 224-250: operands are compared through the two
mappings, ids in `build_closure` operations as they are.  (The code compares one operand at a time and
stops at the first difference.) -/
def structurallyIdentical {S : Type} [DecidableEq S] (a : Body S) (fa : Id → Option Id) (b : Body S)
    (fb : Id → Option Id) : Option Bool := do
  let x ← a.operands.mapM fa
  let y ← b.operands.mapM fb
  return decide (a.shape = b.shape) && decide (x = y) && decide (a.closures = b.closures)

/-- `bucket.iter().copied().find(..)`, src/mir/pass/share_specializations.rs 101-112. -/
def findSurvivor {S : Type} [DecidableEq S] (t : Table) (specs : List (Spec S)) (merged : List Nat)
    (index : Nat) (s : Spec S) : List Nat → Option (Option Nat)
  | [] => some none
  | other :: rest =>
    match specs[other]? with
    | none => none
    | some o =>
      if o.original = s.original then do
        let same ← structurallyIdentical s.body (canonical t merged index) o.body (canonical t merged other)
        if same then return some other else findSurvivor t specs merged index s rest
      else findSurvivor t specs merged index s rest

/-- The state of one round of `group`. -/
structure Round where
  merged : List Nat
  buckets : Nat → List Nat
  changed : Bool

/-- The body of the `for` loop, src/mir/pass/share_specializations.rs 90-121; `digest` stands for
`structure_digest`. -/
def roundStep {S : Type} [DecidableEq S] (digest : Body S → Id → (Id → Option Id) → Nat) (t : Table)
    (specs : List (Spec S)) (st : Round) (index : Nat) : Option Round :=
  match st.merged[index]?, specs[index]? with
  | some m, some s =>
    if m ≠ index then some st
    else do
      let d := digest s.body s.original (canonical t st.merged index)
      let survivor ← findSurvivor t specs st.merged index s (st.buckets d)
      match survivor with
      | some o => return ⟨st.merged.set index o, st.buckets, true⟩
      | none =>
        return ⟨st.merged, fun e => if e = d then st.buckets d ++ [index] else st.buckets e, st.changed⟩
  | _, _ => none

/-- One round, src/mir/pass/share_specializations.rs 87-121. -/
def round {S : Type} [DecidableEq S] (digest : Body S → Id → (Id → Option Id) → Nat) (t : Table)
    (specs : List (Spec S)) (merged : List Nat) : Option Round :=
  (List.range specs.length).foldlM (roundStep digest t specs) ⟨merged, fun _ => [], false⟩

/-- The loop of `group`, src/mir/pass/share_specializations.rs 84-125. -/
def groupLoop {S : Type} [DecidableEq S] (digest : Body S → Id → (Id → Option Id) → Nat) (t : Table)
    (specs : List (Spec S)) (merged : List Nat) : Option (List Nat) :=
  round digest t specs merged >>= fun r =>
    if r.changed then groupLoop digest t specs r.merged else some r.merged
partial_fixpoint

/-- `share_identical_specialization_bodies`, src/mir/pass/share_specializations.rs 51-74. -/
def share {S : Type} [DecidableEq S] (digest : Body S → Id → (Id → Option Id) → Nat) (module_ : Nat)
    (m : Mod S) : Option (Mod S) :=
  if m.specs.length < 2 then some m
  else do
    let t := m.table module_
    let merged ← groupLoop digest t m.specs (List.range m.specs.length)
    let kept ← (List.range m.specs.length).mapM (resolve merged)
    rewrite t (kept.map some) m

end Ferlium.SpecTable
