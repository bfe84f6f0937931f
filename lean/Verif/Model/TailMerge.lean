import Verif.Model.Edit

/-!
Model of `src/mir/pass/tail_merge.rs`: blocks which are equal up to the names of the registers they define are merged,
branches to one target become jumps, and empty blocks are skipped.

An outer `none` is an index panic or an endless loop.  The hash function is a parameter.  A map from the results of a
block to their ordinals is the list of the results in order: a block does not define a register twice.  The flag
`exposed_dead_code` and the pruning of constants are not modelled.
-/
namespace Ferlium.TailMerge

open Ferlium.Mir

/-- What is fed to the hasher. -/
inductive Token
  | len (n : Nat)
  | kind (k : Kind)
  | «local» (ordinal : Nat)
  | value (v : Value)
  | terminator (tag : Nat)
  | target (b : Nat)
deriving DecidableEq

/-- `hash_value` tail_merge.rs:40-55. -/
def hashValue (results : List Nat) (v : Value) : Token :=
  match v with
  | .register r =>
    match results.idxOf? r with
    | some n => .local n
    | none => .value (.register r)
  | v => .value v

/-- `values_alpha_equivalent` tail_merge.rs:57-73. -/
def alphaValue (left right : Value) (leftResults rightResults : List Nat) : Bool :=
  match left, right with
  | .register l, .register r =>
    match leftResults.idxOf? l, rightResults.idxOf? r with
    | some a, some b => a == b
    | none, none => l == r
    | _, _ => false
  | l, r => l == r

/-- `canonical_target` tail_merge.rs:75-77. -/
def canonical (replacement : List (Nat × Nat)) (target : Nat) : Nat := (replacement.lookup target).getD target

/-- One operation in the fingerprint, tail_merge.rs:89-99. -/
def hashOp (state : List Token × List Nat) (op : Op) : List Token × List Nat :=
  (state.1 ++ [.kind op.kind, .len op.operands.length] ++ op.operands.map (hashValue state.2), state.2 ++ op.result.toList)

/-- The terminator in the fingerprint, tail_merge.rs:101-125. -/
def hashTerm (replacement : List (Nat × Nat)) (results : List Nat) : Term → Option (List Token)
  | .goto t => some [.terminator 0, .target (canonical replacement t)]
  | .condBr c t e =>
    some [.terminator 1, hashValue results c, .target (canonical replacement t), .target (canonical replacement e)]
  | .invoke _ _ _ => none
  | .yield v r => some [.terminator 2, hashValue results v, .target (canonical replacement r)]
  | .ret => some [.terminator 3]
  | .propagateError => some [.terminator 4]
  | .cleanupFailure => some [.terminator 5]

/-- `block_fingerprint` tail_merge.rs:79-127. -/
def fingerprint (hash : List Token → Nat) (replacement : List (Nat × Nat)) (b : Block) : Option Nat :=
  let state := b.ops.foldl hashOp ([.len b.ops.length], [])
  (hashTerm replacement state.2 b.term).map fun ts => hash (state.1 ++ ts)

/-- The comparison of the operands, tail_merge.rs:168-173. -/
def alphaValues (leftResults rightResults : List Nat) : List Value → List Value → Bool
  | [], [] => true
  | l :: ls, r :: rs => alphaValue l r leftResults rightResults && alphaValues leftResults rightResults ls rs
  | _, _ => false

/-- The comparison of the operations, tail_merge.rs:158-186: the results of both blocks if they agree. -/
def alphaOps : List Op → List Op → List Nat → List Nat → Option (List Nat × List Nat)
  | [], [], ls, rs => some (ls, rs)
  | l :: left, r :: right, ls, rs =>
    if l.kind = r.kind ∧ alphaValues ls rs l.operands r.operands then
      match l.result, r.result with
      | some a, some b => alphaOps left right (ls ++ [a]) (rs ++ [b])
      | none, none => alphaOps left right ls rs
      | _, _ => none
    else none
  | _, _, _, _ => none

/-- The comparison of the terminators, tail_merge.rs:188-233. -/
def alphaTerm (replacement : List (Nat × Nat)) (ls rs : List Nat) : Term → Term → Bool
  | .goto t, .goto t' => canonical replacement t == canonical replacement t'
  | .condBr c t e, .condBr c' t' e' =>
    alphaValue c c' ls rs && canonical replacement t == canonical replacement t' &&
      canonical replacement e == canonical replacement e'
  | .yield v r, .yield v' r' => alphaValue v v' ls rs && canonical replacement r == canonical replacement r'
  | .ret, .ret => true
  | .propagateError, .propagateError => true
  | .cleanupFailure, .cleanupFailure => true
  | _, _ => false

/-- `blocks_alpha_equivalent` tail_merge.rs:150-234. -/
def alphaBlock (replacement : List (Nat × Nat)) (left right : Block) : Bool :=
  match alphaOps left.ops right.ops [] [] with
  | some (ls, rs) => alphaTerm replacement ls rs left.term right.term
  | none => false

/-- The candidate with this number is equivalent to the block; `none` if there is no such block. -/
def alphaAt (f : Body) (replacement : List (Nat × Nat)) (left : Block) (right : Nat) : Option Bool :=
  f[right]?.map (alphaBlock replacement left)

/-- `Representatives::find` tail_merge.rs:135-140, on the candidates with the given fingerprint in the order in which they
were added. -/
def findRepresentative (f : Body) (replacement : List (Nat × Nat)) (h : Nat) (left : Block) :
    List (Nat × Nat) → Option (Option Nat)
  | [] => some none
  | (h', candidate) :: rest =>
    if h' = h then
      match alphaAt f replacement left candidate with
      | none => none
      | some true => some (some candidate)
      | some false => findRepresentative f replacement h left rest
    else findRepresentative f replacement h left rest

/-- The state of the loop: fingerprints with their representatives, and the replacements. -/
structure State where
  representatives : List (Nat × Nat)
  replacement : List (Nat × Nat)

/-- One block, tail_merge.rs:415-430. -/
def visit (hash : List Token → Nat) (f : Body) (state : State) (b : Nat) : Option State :=
  match f[b]? with
  | none => none
  | some block =>
    match fingerprint hash state.replacement block with
    | none => some state
    | some h =>
      match findRepresentative f state.replacement h block state.representatives with
      | none => none
      | some (some r) => some { state with replacement := (b, r) :: state.replacement }
      | some none => some { state with representatives := state.representatives ++ [(h, b)] }

/-- The reachable blocks without the entry, in reverse order, tail_merge.rs:400-405. -/
def candidates (f : Body) (reachable : Finset Nat) : List Nat :=
  ((List.range f.length).drop 1).filter (· ∈ reachable) |>.reverse

/-- The replacements, tail_merge.rs:390-431. -/
def replacements (hash : List Token → Nat) (f : Body) (reachable : Finset Nat) : Option (List (Nat × Nat)) :=
  ((candidates f reachable).foldlM (visit hash f) ⟨[], []⟩).map State.replacement

/-- `is_operand_free_terminal` tail_merge.rs:260-267. -/
def isTerminal (t : Term) : Bool :=
  match t with
  | .ret => true
  | .propagateError => true
  | .cleanupFailure => true
  | _ => false

/-- `is_empty_terminal_block` tail_merge.rs:269-272. -/
def isEmptyTerminal (b : Block) : Bool := b.ops.isEmpty && isTerminal b.term

/-- A block ending with a jump to an empty terminal block, tail_merge.rs:406-414. -/
def endsAtTerminal (f : Body) (b : Block) : Bool :=
  match b.term with
  | .goto t => (f[t]?.map isEmptyTerminal).getD false
  | _ => false

/-- A branch with one target, tail_merge.rs:436-445. -/
def isEqualBranch (b : Block) : Bool :=
  match b.term with
  | .condBr _ t e => t == e
  | _ => false

/-- `is_empty_forwarding_block` tail_merge.rs:274-278. -/
def isForwarding (p : Block × Nat) : Bool :=
  match p.1.term with
  | .goto t => p.1.ops.isEmpty && t != p.2
  | _ => false

/-- Apply a function to the targets of a terminator. -/
def mapTargets (m : Nat → Nat) : Term → Term
  | .goto t => .goto (m t)
  | .condBr c t e => .condBr c (m t) (m e)
  | .invoke op n e => .invoke op (m n) (m e)
  | .yield v r => .yield v (m r)
  | .ret => .ret
  | .propagateError => .propagateError
  | .cleanupFailure => .cleanupFailure

/-- A branch with one target becomes a jump, tail_merge.rs:345-356 and 489-499. -/
def collapse (t : Term) : Term :=
  match t with
  | .condBr _ x y => if x = y then .goto x else t
  | _ => t

/-- One block of the loop tail_merge.rs:457-500. -/
def redirectBlock (replacement : List (Nat × Nat)) (b : Block) : Block :=
  { b with term := collapse (mapTargets (canonical replacement) b.term) }

/-- The loop of `forwarded_target` tail_merge.rs:287-297; the inner `none` is an exhausted bound. -/
def forwardLoop (f : Body) : Nat → Nat → Option (Option Nat)
  | 0, _ => some none
  | n + 1, current =>
    match f[current]? with
    | none => none
    | some b =>
      if b.ops.isEmpty then
        match b.term with
        | .goto t => if t ≠ current then forwardLoop f n t else some (some current)
        | _ => some (some current)
      else some (some current)

/-- `forwarded_target` tail_merge.rs:286-299. -/
def forwardedTarget (f : Body) (limit target : Nat) : Option Nat :=
  (forwardLoop f limit target).map fun r => r.getD target

/-- One block of `fold_empty_forwarding_blocks` tail_merge.rs:311-357. -/
def foldForwardingAt (limit : Nat) (f : Body) (b : Nat) : Option Body :=
  match f[b]? with
  | none => none
  | some block =>
    (Edit.retarget (forwardedTarget f limit) block.term).map fun t =>
      if t = block.term then f else f.set b { block with term := collapse t }

/-- `fold_empty_forwarding_blocks` tail_merge.rs:307-359. -/
def foldForwarding (f : Body) : Option Body := (List.range f.length).foldlM (foldForwardingAt f.length) f

/-- One block of `fold_empty_terminal_successors` tail_merge.rs:366-380. -/
def foldTerminalAt (f : Body) (b : Nat) : Option Body :=
  match f[b]? with
  | none => none
  | some block =>
    match block.term with
    | .goto t =>
      match f[t]? with
      | none => none
      | some target => some (if isEmptyTerminal target then f.set b { block with term := target.term } else f)
    | _ => some f

/-- `fold_empty_terminal_successors` tail_merge.rs:361-381. -/
def foldTerminals (f : Body) : Option Body := (List.range f.length).reverse.foldlM foldTerminalAt f

/-- Is there something to do? tail_merge.rs:406-414 and 433-454. -/
def worthwhile (f : Body) (reachable : Finset Nat) (replacement : List (Nat × Nat)) : Bool :=
  let live := f.zipIdx.filter fun p => p.2 ∈ reachable
  !replacement.isEmpty || live.any (fun p => isEqualBranch p.1) || (f.take 1).any (endsAtTerminal f) ||
    (live.filter fun p => p.2 != 0).any (fun p => endsAtTerminal f p.1) ||
    (live.filter fun p => p.2 != 0).any isForwarding

/-- `simplify_tails` tail_merge.rs:385-513. -/
def simplifyTails (hash : List Token → Nat) (f : Body) : Option (Option Body) :=
  if f.length < 2 then some none
  else
    Edit.reachLoop f [0] ∅ >>= fun reachable =>
      replacements hash f reachable >>= fun replacement =>
        if worthwhile f reachable replacement then
          (((foldForwarding (f.map (redirectBlock replacement)) >>= foldTerminals) >>= Edit.removeUnreachable) >>=
            Edit.mergeBlocks).map some
        else some none

end Ferlium.TailMerge
