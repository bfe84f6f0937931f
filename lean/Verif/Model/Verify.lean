import Mathlib.Data.List.Basic

/-!
The verification of storage ownership in mir: `mir/verify.rs`.

Simplifications.  Types are finite trees: a type has the fields that `StorageState::shaped` (197-239) gives it, none if it is
opaque (a variant, a native type, a type with its own `Value`, the inner occurrence of a recursive type).  Whether a type is
`TrivialCopy` is part of it, and `never` counts as such (1685-1692).  The nodes of a function are numbered, and the targets of
terminators are the numbers of the first nodes of their blocks (594-658).  Places are either in storage of the function, by root
and path, or outside it (1731-1771); places with an index known only at run time (`path: None`) are not modelled.  The type of a
place is that of the storage at its path.  Checks other than those of `verify_storage_ownership` and
`verify_source_failure_flow` are not modelled.
-/
namespace Ferlium.Verify

/-- What `shaped` 203-229 and `live_state_for_type` 1698-1719 distinguish: tuples and records, named types without their own
`Value` (`hidden` if their shape is neither tuple nor record), and the rest. -/
inductive Kind where
  | product
  | named (hidden : Bool)
  | other
deriving DecidableEq

mutual
/-- A type: its identity, whether it is `TrivialCopy`, its kind, its fields. -/
inductive Ty where
  | mk (id : Nat) (plain : Bool) (kind : Kind) (fields : Tys)

inductive Tys where
  | nil
  | cons (t : Ty) (rest : Tys)
end

deriving instance DecidableEq for Ty, Tys

/-- `LeafState` 147-187: which of the states are possible. -/
structure Leaf where
  un : Bool
  ab : Bool
  ln : Bool
  ld : Bool
deriving DecidableEq

/-- `UNALLOCATED`, `ABSENT`, `LIVE_NO_DROP`, `LIVE_NEEDS_DROP` 151-154. -/
def Leaf.UN : Leaf := ⟨true, false, false, false⟩
def Leaf.AB : Leaf := ⟨false, true, false, false⟩
def Leaf.LN : Leaf := ⟨false, false, true, false⟩
def Leaf.LD : Leaf := ⟨false, false, false, true⟩

/-- `join` 156-158. -/
def Leaf.join (a b : Leaf) : Leaf := ⟨a.un || b.un, a.ab || b.ab, a.ln || b.ln, a.ld || b.ld⟩

/-- `is_definitely_live` 176-178. -/
def Leaf.live (a : Leaf) : Bool := (a.ln || a.ld) && !a.ab && !a.un

/-- `may_be_overwritten_without_drop` 184-186. -/
def Leaf.free (a : Leaf) : Bool := !a.un && !a.ld

mutual
/-- `StorageState` 189-194. -/
inductive Tree where
  | mk (ty : Ty) (st : Leaf) (fields : Trees)

inductive Trees where
  | nil
  | cons (t : Tree) (rest : Trees)
end

deriving instance DecidableEq for Tree, Trees

def Tree.ty : Tree → Ty
  | .mk ty _ _ => ty

def Tree.st : Tree → Leaf
  | .mk _ st _ => st

def Tree.fields : Tree → Trees
  | .mk _ _ fs => fs

def Trees.get : Trees → Nat → Option Tree
  | .nil, _ => none
  | .cons t _, 0 => some t
  | .cons _ rest, i + 1 => rest.get i

def Trees.set : Trees → Nat → Tree → Trees
  | .nil, _, _ => .nil
  | .cons _ rest, 0, x => .cons x rest
  | .cons t rest, i + 1, x => .cons t (rest.set i x)

mutual
/-- `shaped` 197-239. -/
def shaped (a : Leaf) : Ty → Tree
  | .mk id p k fs => .mk (.mk id p k fs) a (shapedAll a fs)

def shapedAll (a : Leaf) : Tys → Trees
  | .nil => .nil
  | .cons t rest => .cons (shaped a t) (shapedAll a rest)
end

mutual
/-- `shape_mismatch` 241-253. -/
def Tree.fits : Tree → Tree → Bool
  | .mk ty _ fs, .mk ty' _ fs' => decide (ty = ty') && fs.fits fs'

def Trees.fits : Trees → Trees → Bool
  | .nil, .nil => true
  | .cons t rest, .cons t' rest' => t.fits t' && rest.fits rest'
  | _, _ => false
end

mutual
/-- `join` 255-265. -/
def Tree.join : Tree → Tree → Tree
  | .mk ty a fs, .mk _ b fs' => .mk ty (a.join b) (fs.join fs')

def Trees.join : Trees → Trees → Trees
  | .cons t rest, .cons t' rest' => .cons (t.join t') (rest.join rest')
  | fs, _ => fs
end

mutual
/-- `set_all` 267-272. -/
def Tree.setAll (a : Leaf) : Tree → Tree
  | .mk ty _ fs => .mk ty a (fs.setAll a)

def Trees.setAll (a : Leaf) : Trees → Trees
  | .nil => .nil
  | .cons t rest => .cons (t.setAll a) (rest.setAll a)
end

/-- The loop of `recompute` 278-283. -/
def Trees.sum : Trees → Leaf
  | .nil => ⟨false, false, false, false⟩
  | .cons t rest => t.st.join rest.sum

mutual
/-- `recompute` 274-284. -/
def Tree.recompute : Tree → Tree
  | .mk ty a .nil => .mk ty a .nil
  | .mk ty _ (.cons t rest) => .mk ty (Trees.cons t.recompute rest.recomputeAll).sum (.cons t.recompute rest.recomputeAll)

def Trees.recomputeAll : Trees → Trees
  | .nil => .nil
  | .cons t rest => .cons t.recompute rest.recomputeAll
end

/-- `at_path` 286-291. -/
def Tree.atPath : List Nat → Tree → Option Tree
  | [], t => some t
  | i :: p, t => (t.fields.get i).bind (Tree.atPath p)

/-- `at_path_mut` 293-298, with what is done there. -/
def Tree.modify (f : Tree → Tree) : List Nat → Tree → Option Tree
  | [], t => some (f t)
  | i :: p, .mk ty a fs => (fs.get i).bind fun c => (Tree.modify f p c).map fun c' => .mk ty a (fs.set i c')

/-- `set_path_all` 311-321. -/
def Tree.setPath (p : List Nat) (a : Leaf) (t : Tree) : Tree :=
  match Tree.modify (Tree.setAll a) p t with
  | some t' => t'.recompute
  | none => t

/-- `replace_path` 323-331. -/
def Tree.replace (t : Tree) (p : List Nat) (x : Tree) : Tree :=
  match Tree.modify (fun _ => x) p t with
  | some t' => t'.recompute
  | none => t

/-- `tracked_prefix_len` 300-309. -/
def Tree.prefixLen : List Nat → Tree → Nat
  | [], _ => 0
  | i :: p, t =>
    match t.fields.get i with
    | some c => Tree.prefixLen p c + 1
    | none => 0

mutual
/-- `live_state_for_type` 1685-1720. -/
def live : Ty → Tree
  | .mk id true k fs => shaped .LN (.mk id true k fs)
  | .mk id false .product fs => Tree.recompute (.mk (.mk id false .product fs) .LN (liveAll fs))
  | .mk id false (.named h) .nil => .mk (.mk id false (.named h) .nil) .LD .nil
  | .mk id false (.named h) (.cons t rest) =>
    Tree.recompute (.mk (.mk id false (.named h) (.cons t rest)) .LN (.cons (live t) (liveAll rest)))
  | .mk id false .other fs => shaped .LD (.mk id false .other fs)

def liveAll : Tys → Trees
  | .nil => .nil
  | .cons t rest => .cons (live t) (liveAll rest)
end

mutual
/-- `storage_paths_are_exact` 1622-1648. -/
def Ty.exact : Ty → Bool
  | .mk _ true _ _ => true
  | .mk _ false .product fs => fs.exact
  | .mk _ false (.named h) fs => !h && fs.exact
  | .mk _ false .other _ => false

def Tys.exact : Tys → Bool
  | .nil => true
  | .cons t rest => t.exact && rest.exact
end

def Ty.plain : Ty → Bool
  | .mk _ p _ _ => p

/-! ### Functions -/

/-- `LocalPlace` 377-384. -/
inductive Place where
  | outside
  | root (r : Nat) (path : List Nat)
deriving DecidableEq

/-- The operations, as `transfer` 1212-1320 tells them apart: `make` is `Clone` and `BuildArray`, `close` is `BuildClosure`,
`nop` is all that does not concern storage. -/
inductive Op where
  | alloca (r : Nat)
  | store (needs : Bool) (dst : Place)
  | memcpy (src dst : Place)
  | move (src dst : Place)
  | clear (dst : Place)
  | drop (dst : Place)
  | make (dst : Place)
  | call (owned : List Place) (dst : Place)
  | close (captures : List Place)
  | save (m : Nat)
  | restore (m : Nat)
  | project (j : Nat)
  | endProject (j : Nat)
  | nop
deriving DecidableEq

/-- Operations and terminators of a function, mir/terminator.rs. -/
inductive Node where
  | op (o : Op)
  | goto (t : Nat)
  | cond (t e : Nat)
  | invoke (o : Op) (normal error : Nat)
  | yield (resume : Nat)
  | ret
  | propagate
  | poison
deriving DecidableEq

/-- A function: its storage (`RootInfo` 400-409: the type, and whether it is an owned parameter), and its nodes, the first one
being the entry. -/
structure Func where
  roots : List (Ty × Bool)
  nodes : List Node

/-- `AnalysisState` 334-341; markers and projections in order. -/
structure State where
  roots : List Tree
  marks : List (Nat × List Bool)
  opens : List Nat
deriving DecidableEq

def State.get (s : State) (r : Nat) (p : List Nat) : Option Tree :=
  (s.roots[r]?).bind (Tree.atPath p)

def State.upd (s : State) (r : Nat) (f : Tree → Tree) : State :=
  match s.roots[r]? with
  | some t => { s with roots := s.roots.set r (f t) }
  | none => s

/-- `mark_opaque_projection_live` 1546-1561. -/
def State.markOpaque (s : State) (r : Nat) (p : List Nat) : State :=
  s.upd r fun t =>
    match Tree.atPath (p.take (Tree.prefixLen p t)) t with
    | some x => t.replace (p.take (Tree.prefixLen p t)) (live x.ty)
    | none => t

/-- `transfer_store` 1352-1385; `none` is a panic. -/
def State.store (needs : Bool) : Place → State → Option State
  | .outside, s => some s
  | .root r p, s =>
    match s.get r p with
    | none => some (s.markOpaque r p)
    | some x =>
      if x.st.free then
        some (s.upd r fun t => t.replace p (if needs then live x.ty else shaped .LN x.ty))
      else none

/-- `transfer_copy_or_move` 1387-1450: the check of the source. -/
def State.source : Place → State → Option (Option Tree)
  | .outside, _ => some none
  | .root r p, s =>
    match s.get r p with
    | none => some none
    | some x => if x.st.live then some (some x) else none

/-- `transfer_copy_or_move` 1387-1450, with the check of `Memcpy` 1227-1233. -/
def State.transport (isMove : Bool) (src dst : Place) (s : State) : Option State :=
  (s.source src).bind fun sv =>
    let s1 : Option State :=
      match dst with
      | .outside => some s
      | .root r p =>
        match s.get r p with
        | none => some (s.markOpaque r p)
        | some x =>
          if x.st.free then
            let y := match sv with
              | some v => if v.ty = x.ty then v else if isMove then live x.ty else shaped .LN x.ty
              | none => if isMove then live x.ty else shaped .LN x.ty
            some (s.upd r fun t => t.replace p y)
          else none
    s1.map fun s1 =>
      match src with
      | .outside => s1
      | .root r p => if isMove then s1.upd r (Tree.setPath p .AB) else s1

/-- The check of `Memcpy` 1226-1234. -/
def State.copyable (s : State) : Place → Bool
  | .outside => true
  | .root r p =>
    match s.get r p with
    | some x => x.ty.plain
    | none => true

/-- `transfer_clear` 1452-1475. -/
def State.clear : Place → State → Option State
  | .outside, s => some s
  | .root r p, s =>
    match s.get r p with
    | none => some s
    | some x => if x.st.free then some (s.upd r (Tree.setPath p .AB)) else none

/-- `transfer_drop` 1477-1495. -/
def State.drop : Place → State → Option State
  | .outside, s => some s
  | .root r p, s =>
    match s.get r p with
    | none => none
    | some x => if x.st.un then none else some (s.upd r (Tree.setPath p .AB))

/-- `consume_place` 1497-1515. -/
def State.consume : Place → State → Option State
  | .outside, s => some s
  | .root r p, s =>
    match s.get r p with
    | none => none
    | some x => if x.st.live then some (s.upd r (Tree.setPath p .AB)) else none

def State.consumeAll : List Place → State → Option State
  | [], s => some s
  | p :: rest, s => (s.consume p).bind (State.consumeAll rest)

/-- Insertion into the map of markers. -/
def insertMark (m : Nat) (v : List Bool) : List (Nat × List Bool) → List (Nat × List Bool)
  | [] => [(m, v)]
  | e :: rest => if m < e.1 then (m, v) :: e :: rest else if m = e.1 then (m, v) :: rest else e :: insertMark m v rest

def findMark (m : Nat) : List (Nat × List Bool) → Option (List Bool)
  | [] => none
  | e :: rest => if e.1 = m then some e.2 else findMark m rest

/-- `StackSave` 1282-1303, with its `debug_assert`, which is on wherever the verification is. -/
def State.save (m : Nat) (s : State) : Option State :=
  if s.roots.all (fun t => decide (t.st = .UN) || !t.st.un) then
    some { s with marks := insertMark m (s.roots.map fun t => !t.st.un) s.marks }
  else none

/-- The loop of `transfer_stack_restore` 1573-1586. -/
def reclaim : List Bool → List Tree → Option (List Tree)
  | true :: snap, t :: ts => (reclaim snap ts).map (t :: ·)
  | false :: snap, t :: ts => if t.st.ld then none else (reclaim snap ts).map (t.setAll .UN :: ·)
  | _, ts => some ts

/-- `transfer_stack_restore` 1563-1587. -/
def State.restore (m : Nat) (s : State) : Option State :=
  (findMark m s.marks).bind fun snap => (reclaim snap s.roots).map fun ts => { s with roots := ts }

/-- Insertion into the set of projections. -/
def insertNat (j : Nat) : List Nat → List Nat
  | [] => [j]
  | e :: rest => if j < e then j :: e :: rest else e :: insertNat j rest

/-- The operations in `transfer` 1216-1316: the states on the normal edge and on the error edge. -/
def transferOp : Op → State → Option (State × State)
  | .alloca r, s => some (s.upd r (Tree.setAll .AB), s)
  | .store needs dst, s => (s.store needs dst).map (·, s)
  | .memcpy src dst, s => if s.copyable src then (s.transport false src dst).map (·, s) else none
  | .move src dst, s => (s.transport true src dst).map (·, s)
  | .clear dst, s => (s.clear dst).map (·, s)
  | .drop dst, s => (s.drop dst).map fun s1 => (s1, s1)
  | .make dst, s => (s.store true dst).map (·, s)
  | .call owned dst, s => (s.consumeAll owned).bind fun s1 => (s1.store true dst).map (·, s1)
  | .close captures, s => (s.consumeAll captures).map (·, s)
  | .save m, s => (s.save m).map (·, s)
  | .restore m, s => (s.restore m).map (·, s)
  | .project j, s => if j ∈ s.opens then none else some ({ s with opens := insertNat j s.opens }, s)
  | .endProject j, s =>
    if j ∈ s.opens then
      some ({ s with opens := s.opens.filter (· != j) }, { s with opens := s.opens.filter (· != j) })
    else none
  | .nop, s => some (s, s)

/-- The check of one root at the end, 1598-1618. -/
def exitRoot (info : Ty × Bool) (t : Tree) : Bool :=
  if info.2 then decide (t.st = .AB) else !info.1.exact || !t.st.ld

/-- `verify_frame_exit` 1589-1620. -/
def exitOk (F : Func) (s : State) : Bool :=
  s.opens.isEmpty && (F.roots.zip s.roots).all fun e => exitRoot e.1 e.2

/-- `transfer` 1212-1350 with `successors` 1784-1828. -/
def transfer (F : Func) (i : Nat) (s : State) : Option (List (Nat × State)) :=
  match F.nodes[i]? with
  | none => none
  | some (.op o) => (transferOp o s).map fun r => [(i + 1, r.1)]
  | some (.goto t) => some [(t, s)]
  | some (.cond t e) => some [(t, s), (e, s)]
  | some (.invoke o n e) => (transferOp o s).map fun r => [(n, r.1), (e, r.2)]
  | some (.yield t) => some [(t, s)]
  | some .ret => if exitOk F s then some [] else none
  | some .propagate => if exitOk F s then some [] else none
  | some .poison => some []

/-! ### The fixed point -/

/-- `has_same_allocation_frontier` 344-348. -/
def State.sameFrontier (s s' : State) : Bool :=
  (s.roots.zip s'.roots).all fun e => e.1.st.un == e.2.st.un

/-- The alternative a state is joined to, 1187-1191. -/
def State.matches (s s' : State) : Bool :=
  decide (s.marks = s'.marks) && decide (s.opens = s'.opens) && s.sameFrontier s'

/-- `join_roots` 350-374: panics if the shapes differ. -/
def joinRoots : List Tree → List Tree → Option (List Tree)
  | t :: ts, t' :: ts' => if t.fits t' then (joinRoots ts ts').map (t.join t' :: ·) else none
  | ts, _ => some ts

/-- 1187-1203: the alternatives afterwards, the number of the one that contains the state, and whether it changed. -/
def merge : List State → State → Option (List State × Nat × Bool)
  | [], s => some ([s], 0, true)
  | a :: rest, s =>
    if a.matches s then
      (joinRoots a.roots s.roots).map fun ts => ({ a with roots := ts } :: rest, 0, decide (ts ≠ a.roots))
    else (merge rest s).map fun r => (a :: r.1, r.2.1 + 1, r.2.2)

/-- The edges of one node, 1183-1208. -/
def spread : List (Nat × State) → List (List State) → List (Nat × Nat) → Option (List (List State) × List (Nat × Nat))
  | [], inputs, work => some (inputs, work)
  | (t, s) :: rest, inputs, work =>
    (inputs[t]?).bind fun alts =>
      (merge alts s).bind fun r =>
        spread rest (inputs.set t r.1) (if r.2.2 then work ++ [(t, r.2.1)] else work)

/-- `verify_storage_ownership` 1178-1209, at most so many turns of the loop. -/
def loop (F : Func) : Nat → List (List State) → List (Nat × Nat) → Option (List (List State))
  | _, inputs, [] => some inputs
  | 0, _, _ :: _ => none
  | k + 1, inputs, (i, a) :: work =>
    ((inputs[i]?).bind (·[a]?)).bind fun s =>
      (transfer F i s).bind fun edges =>
        (spread edges inputs work).bind fun r => loop F k r.1 r.2

/-- The state at the entry, 1155-1173. -/
def initial (F : Func) : State :=
  ⟨F.roots.map fun e => if e.2 then live e.1 else shaped .UN e.1, [], []⟩

/-- `verify_storage_ownership` 1154-1210: verification ends without a panic. -/
def verified (F : Func) : Prop :=
  ∃ k r, loop F k ((List.replicate F.nodes.length []).set 0 [initial F]) [(0, 0)] = some r

/-! ### Failures in flight -/

/-- `FailureState` 392-398 as the number of failures; the successors of a node in `verify_source_failure_flow` 483-541. -/
def flowOf (F : Func) (i : Nat) (n : Nat) : Option (List (Nat × Nat)) :=
  match F.nodes[i]? with
  | none => none
  | some (.op _) => some [(i + 1, n)]
  | some (.goto t) => some [(t, n)]
  | some (.cond t e) => some [(t, n), (e, n)]
  | some (.invoke _ t e) => if n = 2 then none else some [(t, n), (e, n + 1)]
  | some (.yield t) => if n = 0 then some [(t, n)] else none
  | some .ret => if n = 0 then some [] else none
  | some .propagate => if n = 1 then some [] else none
  | some .poison => if n = 2 then some [] else none

/-- 543-557. -/
def flowSpread : List (Nat × Nat) → List (Option Nat) → List Nat → Option (List (Option Nat) × List Nat)
  | [], inputs, work => some (inputs, work)
  | (t, n) :: rest, inputs, work =>
    match inputs[t]? with
    | none => none
    | some none => flowSpread rest (inputs.set t (some n)) (work ++ [t])
    | some (some n') => if n' = n then flowSpread rest inputs work else none

/-- The loop of `verify_source_failure_flow` 480-558, at most so many turns. -/
def flowLoop (F : Func) : Nat → List (Option Nat) → List Nat → Option (List (Option Nat))
  | _, inputs, [] => some inputs
  | 0, _, _ :: _ => none
  | k + 1, inputs, i :: work =>
    (inputs[i]?.join).bind fun n =>
      (flowOf F i n).bind fun edges =>
        (flowSpread edges inputs work).bind fun r => flowLoop F k r.1 r.2

/-- `verify_source_failure_flow` 475-560. -/
def flowVerified (F : Func) : Prop :=
  ∃ k r, flowLoop F k ((List.replicate F.nodes.length none).set 0 (some 0)) [0] = some r

end Ferlium.Verify
