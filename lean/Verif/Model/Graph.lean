import Mathlib.Logic.Relation

/-!
Model of the graph algorithms of `src/graph.rs`.  A graph is the list of neighbour lists (`Node::neighbors`);
vectors are lists, the top of a `Vec` used as a stack is the head of the list.  The conversions `index_of` and
`position_of` (graph.rs:25-34) are the identity.  Loops are `partial_fixpoint`s into `Option`: `none` is a panic
(index out of range) or an endless loop, so the theorems that a result is `some` include termination.
-/
namespace Ferlium.Graph

abbrev Gr := List (List Nat)

/-! ### `reverse_postorder` -/

/-- The `while` loop of graph.rs:46-57. -/
def rpoLoop (g : Gr) (visited : List Bool) (post : List Nat) (stack : List (Nat × Nat)) : Option (List Nat) :=
  match stack with
  | [] => some post
  | (node, next) :: rest =>
    match g[node]? with
    | none => none
    | some succs =>
      match succs[next]? with
      | some s =>
        match visited[s]? with
        | none => none
        | some true => rpoLoop g visited post ((node, next + 1) :: rest)
        | some false => rpoLoop g (visited.set s true) post ((s, 0) :: (node, next + 1) :: rest)
      | none => rpoLoop g visited (post ++ [node]) rest
partial_fixpoint

/-- `reverse_postorder` graph.rs:41-60. -/
def reversePostorder (g : Gr) (entry : Nat) : Option (List Nat) :=
  if entry < g.length then
    (rpoLoop g ((List.replicate g.length false).set entry true) [] [(entry, 0)]).map List.reverse
  else none

/-! ### `find_cycle_from` -/

/-- `VisitState` graph.rs:240-248. -/
inductive VisitState where
  | unvisited
  | onStack
  | done
  deriving DecidableEq

/-- Result of the search: nothing found or a cycle. -/
abbrev CycleResult := Option (List Nat)

/-- The `while` loop of graph.rs:268-306.  `path` is kept in the order of the vector. -/
def cycleLoop (g : Gr) (state : List VisitState) (path : List Nat) (stack : List (Nat × Nat)) :
    Option CycleResult :=
  match stack with
  | [] => some none
  | (current, child) :: rest =>
    match g[current]? with
    | none => none
    | some neighbors =>
      match neighbors[child]? with
      | some neighbor =>
        match state[neighbor]? with
        | none => none
        | some .unvisited =>
          cycleLoop g (state.set neighbor .onStack) (path ++ [neighbor]) ((neighbor, 0) :: (current, child + 1) :: rest)
        | some .onStack => some (some (path.dropWhile (fun id => id ≠ neighbor)))
        | some .done => cycleLoop g state path ((current, child + 1) :: rest)
      | none => cycleLoop g (state.set current .done) path.dropLast rest
partial_fixpoint

/-- `find_cycle_from` graph.rs:258-310. -/
def findCycleFrom (g : Gr) (start : Nat) : Option CycleResult :=
  if start < g.length then
    cycleLoop g ((List.replicate g.length .unvisited).set start .onStack) [start] [(start, 0)]
  else none

/-! ### `find_strongly_connected_components` -/

/-- The mutable state shared by the recursive calls, graph.rs:96-101. -/
structure Tarjan where
  index : Nat
  stack : List Nat
  inStack : List Bool
  indices : List (Option Nat)
  lowLink : List Nat
  sccs : List (List Nat)

/-- The popping loop of graph.rs:146-154. -/
def popComponent (node : Nat) (stack : List Nat) (inStack : List Bool) : List Nat × List Nat × List Bool :=
  match stack with
  | [] => ([], [], inStack)
  | w :: rest =>
    let inStack := inStack.set w false
    if w = node then ([w], rest, inStack)
    else
      let (scc, stack, inStack) := popComponent node rest inStack
      (w :: scc, stack, inStack)

/-- `strong_connect` graph.rs:104-157. -/
def strongConnect (g : Gr) (node : Nat) (t : Tarjan) : Option Tarjan :=
  match g[node]? with
  | none => none
  | some neighbors =>
    let t := { t with
      indices := t.indices.set node (some t.index)
      lowLink := t.lowLink.set node t.index
      index := t.index + 1
      stack := node :: t.stack
      inStack := t.inStack.set node true }
    (neighbors.foldlM (init := t) fun t neighbor =>
      match t.indices[neighbor]? with
      | none => none
      | some none =>
        strongConnect g neighbor t >>= fun t =>
          match t.lowLink[node]?, t.lowLink[neighbor]? with
          | some a, some b => some { t with lowLink := t.lowLink.set node (min a b) }
          | _, _ => none
      | some (some i) =>
        match t.inStack[neighbor]? with
        | some true =>
          match t.lowLink[node]? with
          | some a => some { t with lowLink := t.lowLink.set node (min a i) }
          | none => none
        | some false => some t
        | none => none) >>= fun t =>
      match t.lowLink[node]?, t.indices[node]? with
      | some low, some (some i) =>
        if low = i then
          let (scc, stack, inStack) := popComponent node t.stack t.inStack
          some { t with stack, inStack, sccs := t.sccs ++ [scc] }
        else some t
      | _, _ => none
partial_fixpoint

/-- `find_strongly_connected_components` graph.rs:95-176. -/
def findSccs (g : Gr) : Option (List (List Nat)) :=
  let init : Tarjan :=
    ⟨0, [], List.replicate g.length false, List.replicate g.length none, List.replicate g.length 0, []⟩
  ((List.range g.length).foldlM (init := init) fun (t : Tarjan) node =>
    match t.indices[node]? with
    | none => none
    | some none => strongConnect g node t
    | some (some _) => some t).map Tarjan.sccs

/-! ### `topological_sort_sccs` -/

/-- Filling `node_to_scc` graph.rs:183-188. -/
def nodeToScc (g : Gr) (sccs : List (List Nat)) : Option (List (Option Nat)) :=
  sccs.zipIdx.foldlM (init := List.replicate g.length none) fun m (scc, i) =>
    scc.foldlM (init := m) fun m node => if node < m.length then some (m.set node (some i)) else none

/-- The condensed graph with in-degrees: one neighbour of one node, graph.rs:196-208.  A hash set is the list of its
members in insertion order. -/
def condenseEdge (map : List (Option Nat)) (i : Nat) (s : List (List Nat) × List Nat) (neighbor : Nat) :
    Option (List (List Nat) × List Nat) :=
  match map[neighbor]? with
  | none => none
  | some none => some s
  | some (some j) =>
    if i ≠ j then
      match s.1[i]?, s.2[j]? with
      | some set, some d => if j ∈ set then some s else some (s.1.set i (set ++ [j]), s.2.set j (d + 1))
      | _, _ => none
    else some s

/-- graph.rs:190-210. -/
def condense (g : Gr) (sccs : List (List Nat)) (map : List (Option Nat)) : Option (List (List Nat) × List Nat) :=
  sccs.zipIdx.foldlM (init := (List.replicate sccs.length [], List.replicate sccs.length 0)) fun s (scc, i) =>
    scc.foldlM (init := s) fun s node =>
      match g[node]? with
      | none => none
      | some neighbors => neighbors.foldlM (init := s) (condenseEdge map i)

/-- One edge of Kahn's algorithm, graph.rs:228-233; decrementing zero would panic. -/
def kahnEdge (s : List Nat × List Nat) (neighbor : Nat) : Option (List Nat × List Nat) :=
  match s.1[neighbor]? with
  | some (d + 1) => some (s.1.set neighbor d, if d = 0 then s.2 ++ [neighbor] else s.2)
  | _ => none

/-- The loop of Kahn's algorithm, graph.rs:223-234.  `order` is the iteration order of a hash set. -/
def kahnLoop (order : List Nat → List Nat) (sccs : List (List Nat)) (edges : List (List Nat)) (degree : List Nat)
    (queue : List Nat) (sorted : List (List Nat)) : Option (List (List Nat)) :=
  match queue with
  | [] => some sorted
  | i :: queue =>
    match sccs[i]?, edges[i]? with
    | some scc, some es =>
      (order es).foldlM (init := (degree, queue)) kahnEdge >>= fun s =>
        kahnLoop order sccs edges s.1 s.2 (sorted ++ [scc])
    | _, _ => none
partial_fixpoint

/-- `topological_sort_sccs` graph.rs:178-237. -/
def topologicalSortSccs (order : List Nat → List Nat) (g : Gr) (sccs : List (List Nat)) :
    Option (List (List Nat)) :=
  (nodeToScc g sccs).bind fun map =>
    (condense g sccs map).bind fun (edges, degree) =>
      let queue := (List.range sccs.length).filter (fun i => degree[i]? = some 0)
      kahnLoop order sccs edges degree queue []

/-! ### Users of the components -/

/-- The `recursive` flag computed by `local_function_sccs` desugar/types.rs:1736-1752 (and the same test in
desugar/module.rs:515-519, 593). -/
def isRecursiveGroup (g : Gr) (functions : List Nat) : Bool :=
  functions.length > 1 ||
    (match functions.head? with
      | some i => (match g[i]? with | some l => l.contains i | none => false)
      | none => false)

/-- `components_callees_first` mir/pass/call_graph.rs:121-137; the same composition is used with `.rev()` in
types/type.rs:3273-3276, desugar/module.rs:590-592 and, split over two files, desugar/module.rs:964-969 with
hir/emit_hir.rs:955. -/
def componentsCalleesFirst (order : List Nat → List Nat) (g : Gr) : Option (List (List Nat)) :=
  (findSccs g).bind fun sccs => (topologicalSortSccs order g sccs).map List.reverse

end Ferlium.Graph
