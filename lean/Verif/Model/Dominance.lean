import Verif.Model.Graph

/-!
Model of `src/mir/dominance.rs`.  Vectors indexed by nodes are lists; an access outside a vector, a failed
`expect` and an endless loop are `none`.  `UNREACHABLE` (`usize::MAX`, line 31) is `none` inside the vectors: time
stamps stay below twice the number of nodes and reverse-postorder indices below the number of nodes, both smaller
than `usize::MAX` for a vector that fits in memory.  Comparing an `UNREACHABLE` reverse-postorder index is
modelled as a failure, so the theorems also say that it never happens.
-/
namespace Ferlium.Dominance

open Ferlium.Graph

/-- The predecessor lists, dominance.rs:39-44. -/
def predecessors (g : Gr) : Option (List (List Nat)) :=
  g.zipIdx.foldlM (init := List.replicate g.length []) fun preds p =>
    p.1.foldlM (init := preds) fun preds target =>
      match preds[target]? with
      | none => none
      | some l => some (preds.set target (l ++ [p.2]))

/-- `reverse_postorder_index`, dominance.rs:47-50. -/
def rpoIndex (n : Nat) (rpo : List Nat) : Option (List (Option Nat)) :=
  rpo.zipIdx.foldlM (init := List.replicate n none) fun index p =>
    if p.1 < index.length then some (index.set p.1 (some p.2)) else none

/-- One of the two inner `while` loops of `intersect_dominator_paths`, dominance.rs:138-141 and 142-145: walk `a` up
until its index is not larger than that of `b`. -/
def walkUp (idom : List (Option Nat)) (index : List (Option Nat)) (a b : Nat) : Option Nat :=
  match index[a]?, index[b]? with
  | some (some i), some (some j) =>
    if i > j then
      match idom[a]? with
      | some (some p) => walkUp idom index p b
      | _ => none
    else some a
  | _, _ => none
partial_fixpoint

/-- `intersect_dominator_paths` dominance.rs:131-148. -/
def intersectPaths (idom : List (Option Nat)) (index : List (Option Nat)) (left right : Nat) : Option Nat :=
  if left = right then some left
  else
    walkUp idom index left right >>= fun left =>
      walkUp idom index right left >>= fun right =>
        intersectPaths idom index left right
partial_fixpoint

/-- Is an immediate dominator recorded for the node? dominance.rs:60. -/
def known (idom : List (Option Nat)) (p : Nat) : Bool :=
  match idom[p]? with
  | some (some _) => true
  | _ => false

/-- The new dominator of one node, dominance.rs:57-71. -/
def newDominator (preds : List (List Nat)) (index : List (Option Nat)) (idom : List (Option Nat)) (node : Nat) :
    Option Nat :=
  match preds[node]? with
  | none => none
  | some ps =>
    match ps.filter (known idom) with
    | [] => none
    | p :: rest => rest.foldlM (init := p) fun d p => intersectPaths idom index p d

/-- One node of a pass, dominance.rs:56-76. -/
def passStep (preds : List (List Nat)) (index : List (Option Nat)) (s : List (Option Nat) × Bool) (node : Nat) :
    Option (List (Option Nat) × Bool) :=
  newDominator preds index s.1 node >>= fun d =>
    match s.1[node]? with
    | none => none
    | some old => if old ≠ some d then some (s.1.set node (some d), true) else some s

/-- The `loop` of dominance.rs:54-80. -/
def domLoop (preds : List (List Nat)) (index : List (Option Nat)) (rpo : List Nat) (idom : List (Option Nat)) :
    Option (List (Option Nat)) :=
  (rpo.drop 1).foldlM (init := (idom, false)) (passStep preds index) >>= fun s =>
    if s.2 then domLoop preds index rpo s.1 else some s.1
partial_fixpoint

/-- The children of the dominator tree, dominance.rs:82-87. -/
def childLists (n : Nat) (rpo : List Nat) (idom : List (Option Nat)) : Option (List (List Nat)) :=
  (rpo.drop 1).foldlM (init := List.replicate n []) fun children node =>
    match idom[node]? with
    | some (some d) =>
      match children[d]? with
      | some l => some (children.set d (l ++ [node]))
      | none => none
    | _ => none

/-- Preorder numbers, postorder numbers and the time. -/
structure Stamps where
  pre : List (Option Nat)
  post : List (Option Nat)
  time : Nat

/-- The `while` loop of dominance.rs:93-105; the head of the list is the top of the stack. -/
def stampLoop (children : List (List Nat)) (stack : List (Nat × Bool)) (s : Stamps) : Option Stamps :=
  match stack with
  | [] => some s
  | (node, true) :: stack =>
    if node < s.post.length then
      stampLoop children stack { s with post := s.post.set node (some s.time), time := s.time + 1 }
    else none
  | (node, false) :: stack =>
    if node < s.pre.length then
      match children[node]? with
      | some cs =>
        stampLoop children (cs.map (fun c => (c, false)) ++ (node, true) :: stack)
          { s with pre := s.pre.set node (some s.time), time := s.time + 1 }
      | none => none
    else none
partial_fixpoint

/-- `struct Dominance` dominance.rs:24-28. -/
structure Dom where
  children : List (List Nat)
  preorder : List (Option Nat)
  postorder : List (Option Nat)

/-- `Dominance::of` dominance.rs:37-112. -/
def compute (g : Gr) (entry : Nat) : Option Dom :=
  predecessors g >>= fun preds =>
  reversePostorder g entry >>= fun rpo =>
  rpoIndex g.length rpo >>= fun index =>
  domLoop preds index rpo ((List.replicate g.length none).set entry (some entry)) >>= fun idom =>
  childLists g.length rpo idom >>= fun children =>
  stampLoop children [(entry, false)] ⟨List.replicate g.length none, List.replicate g.length none, 0⟩ >>= fun s =>
  some ⟨children, s.pre, s.post⟩

/-- `is_reachable` dominance.rs:114-116. -/
def Dom.isReachable (d : Dom) (node : Nat) : Option Bool := (d.preorder[node]?).map Option.isSome

/-- `dominates` dominance.rs:118-123. -/
def Dom.dominates (d : Dom) (definition usage : Nat) : Option Bool :=
  match d.preorder[definition]?, d.preorder[usage]?, d.postorder[definition]?, d.postorder[usage]? with
  | some p1, some p2, some q1, some q2 =>
    match p1, p2 with
    | some p1, some p2 =>
      match q1, q2 with
      | some q1, some q2 => some (decide (p1 ≤ p2) && decide (q2 ≤ q1))
      | _, _ => none
    | _, _ => some false
  | _, _, _, _ => none

end Ferlium.Dominance
