import Mathlib.Tactic

/-!
Model of cleanup: what is dropped, and which accessors are resumed, on each way out of a piece of code.  The evaluator of
`src/eval.rs`, the lowering of `src/emit_mir.rs` with its scopes, inline cleanup and landing pads, and the execution of the
blocks it builds.

What an operation does to the state of the program is a parameter (`World`), and values are part of that state.  An operation
that may fail is one whose effects contain failure (`source_fallibility`, mir/operation.rs); others do not fail.  Sandbox
violations (fuel, limits), yields out of the function itself, stack markers and the places of results are not modelled.
`Value::drop` does not fail, and dropping a local that holds nothing does nothing, which is up to the world.
-/
namespace Ferlium.Cleanup

/-- Operations: an ordinary one, `drop` of a local, `project` (run an accessor to its yield) and `end_project` (resume it);
`f` says whether it may fail. -/
inductive Op where
  | act (a : Nat) (f : Bool)
  | drop (x : Nat)
  | enter (p : Nat) (f : Bool)
  | slide (p : Nat) (f : Bool)
deriving DecidableEq

/-- `Operation::source_fallibility`, and `CleanupAction::is_source_fallible` emit_mir.rs:2975-2985. -/
def Op.fallible : Op → Bool
  | .act _ f => f
  | .drop _ => false
  | .enter _ f => f
  | .slide _ f => f

mutual
/-- Elaborated `NodeKind`s, hir/mod.rs:820-900: an operation whose operands are ready; a block with the locals it drops; a
`case`; a loop; `break`, `continue` and `return`; and `WithYielded`, whose accessor is a call inside one block with the locals
it drops, statements before the call, and arguments. -/
inductive Node where
  | op (a : Nat) (f : Bool)
  | block (cleanup : List Nat) (body : Nodes)
  | case (scrut : Node) (arms : Arms)
  | loop (l : Nat) (body : Node)
  | brk (l : Nat) (v : Node)
  | cont (l : Nat)
  | ret (v : Node)
  | scoped (cleanup : List Nat) (pre args : Nodes) (p : Nat) (f : Bool) (body : Node)

inductive Nodes where
  | nil
  | cons (n : Node) (rest : Nodes)

/-- The alternatives of a case, each with its test, and the default. -/
inductive Arms where
  | other (n : Node)
  | alt (t : Nat) (n : Node) (rest : Arms)
end

/-- How a node is left: `ControlFlow` and `RuntimeError` of eval.rs; `poison` is `FailureDuringCleanup`. -/
inductive Out where
  | done
  | brk (l : Nat)
  | cont (l : Nat)
  | ret
  | fail
  | poison
deriving DecidableEq

/-- What operations do to the state and whether they succeed, and what tests answer. -/
structure World (σ : Type) where
  run : Op → σ → σ × Bool
  test : Nat → σ → Bool

/-- Runs an operation; one that may not fail succeeds. -/
def World.go {σ : Type} (W : World σ) (o : Op) (s : σ) : σ × Bool :=
  ((W.run o s).1, !o.fallible || (W.run o s).2)

/-! ### The evaluator -/

/-- `drop_cleanup_locals` eval.rs:3516-3537. -/
def dropLocals {σ : Type} (W : World σ) (xs : List Nat) (s : σ) : σ :=
  xs.reverse.foldl (fun s x => (W.go (.drop x) s).1) s

/-- `eval_loop` eval.rs:3774-3815, for at most so many iterations. -/
def iterate {σ : Type} (l : Nat) (body : σ → Option (Out × σ)) : Nat → σ → Option (Out × σ)
  | 0, _ => none
  | k + 1, s =>
    match body s with
    | none => none
    | some (.done, s1) => iterate l body k s1
    | some (.cont l', s1) => if l' = l then iterate l body k s1 else some (.cont l', s1)
    | some (.brk l', s1) => if l' = l then some (.done, s1) else some (.brk l', s1)
    | some r => some r

/-- The end of `eval_block_with_cleanup` eval.rs:3540-3610: the locals are dropped, unless execution is poisoned. -/
def leaveBlock {σ : Type} (W : World σ) (xs : List Nat) : Out × σ → Out × σ
  | (.poison, s) => (.poison, s)
  | (o, s) => (o, dropLocals W xs s)

/-- The end of `eval_with_yielded` eval.rs:3060-3085 and `combine_with_yielded_body_and_epilogue`: the accessor is resumed,
then the locals of the accessor block are dropped, unless execution is poisoned. -/
def leaveScoped {σ : Type} (W : World σ) (xs : List Nat) (p : Nat) (f : Bool) : Out × σ → Out × σ
  | (.poison, s) => (.poison, s)
  | (o, s) =>
    match W.go (.slide p f) s with
    | (s1, true) => (o, dropLocals W xs s1)
    | (s1, false) => if o = .fail then (.poison, s1) else (.fail, dropLocals W xs s1)

mutual
/-- `eval_node_with_ctx` eval.rs:1540-1760, with loops running at most `k` iterations each. -/
def eval {σ : Type} (W : World σ) (k : Nat) : Node → σ → Option (Out × σ)
  | .op a f, s =>
    match W.go (.act a f) s with
    | (s1, true) => some (.done, s1)
    | (s1, false) => some (.fail, s1)
  | .block xs body, s => (evalAll W k body s).map (leaveBlock W xs)
  | .case n arms, s =>
    match eval W k n s with
    | some (.done, s1) => evalArms W k arms s1
    | r => r
  | .loop l body, s => iterate l (eval W k body) k s
  | .brk l v, s =>
    match eval W k v s with
    | some (.done, s1) => some (.brk l, s1)
    | r => r
  | .cont l, s => some (.cont l, s)
  | .ret v, s =>
    match eval W k v s with
    | some (.done, s1) => some (.ret, s1)
    | r => r
  -- eval_with_yielded 3037-3105, eval_accessor_until_yield 3107-3185, eval_block_accessor_until_yield 3187-3245: a failure of
  -- an argument or of the accessor leaves by `?`, without the locals of the block.
  | .scoped xs pre args p f body, s =>
    match evalAll W k pre s with
    | none => none
    | some (.done, s1) =>
      match evalAll W k args s1 with
      | none => none
      | some (.done, s2) =>
        match W.go (.enter p f) s2 with
        | (s3, true) => (eval W k body s3).map (leaveScoped W xs p f)
        | (s3, false) => some (.fail, s3)
      | some (.fail, s2) => some (.fail, s2)
      | some r => some (leaveBlock W xs r)
    | some r => some (leaveBlock W xs r)

/-- The statements of a block, or arguments, in order, until one does not complete. -/
def evalAll {σ : Type} (W : World σ) (k : Nat) : Nodes → σ → Option (Out × σ)
  | .nil, s => some (.done, s)
  | .cons n rest, s =>
    match eval W k n s with
    | some (.done, s1) => evalAll W k rest s1
    | r => r

/-- `eval_case`: the first alternative whose test holds, or the default. -/
def evalArms {σ : Type} (W : World σ) (k : Nat) : Arms → σ → Option (Out × σ)
  | .other n, s => eval W k n s
  | .alt t n rest, s => if W.test t s then eval W k n s else evalArms W k rest s
end

/-! ### Lowering -/

/-- `TerminatorKind`, mir/terminator.rs. -/
inductive Term where
  | goto (b : Nat)
  | branch (t : Nat) (yes no : Nat)
  | invoke (o : Op) (normal error : Nat)
  | ret
  | propagate
  | poison
deriving DecidableEq

/-- `PendingBlock` mir/builder.rs. -/
structure Block where
  ops : List Op
  term : Option Term
deriving DecidableEq

/-- `PendingPad` emit_mir.rs:2922-2936; the actions in the order in which they run. -/
structure Pad where
  block : Nat
  acts : List Op
  outer : Option Nat
deriving DecidableEq

/-- `Scope` emit_mir.rs:2939-2952: its cleanup in the order of declaration, and its pad if there is one. -/
structure Scope where
  acts : List Op
  pad : Option Nat
deriving DecidableEq

/-- `LoopFrame` emit_mir.rs: head and exit block of a loop, and the number of scopes around it. -/
structure Frame where
  head : Nat
  exit : Nat
  depth : Nat
deriving DecidableEq

/-- `InsertionContext` emit_mir.rs:2846-2905; the scopes innermost first. -/
structure B where
  blocks : List Block
  point : Nat
  scopes : List Scope
  loops : List (Nat × Frame)
  pads : List Pad
  prop : Option Nat
  poison : Option Nat
deriving DecidableEq

/-- `add_block` builder.rs:101-108; its id is the number of blocks before. -/
def B.add (b : B) : B := { b with blocks := b.blocks ++ [⟨[], none⟩] }

/-- `current_block_is_terminated` emit_mir.rs:2821-2825. -/
def B.terminated (b : B) : Bool :=
  match b.blocks[b.point]? with
  | some blk => blk.term.isSome
  | none => true

/-- `append_operation` builder.rs:119-145: panics if the block is terminated. -/
def B.append (b : B) (o : Op) : Option B :=
  match b.blocks[b.point]? with
  | some ⟨ops, none⟩ => some { b with blocks := b.blocks.set b.point ⟨ops ++ [o], none⟩ }
  | _ => none

/-- `set_terminator` builder.rs:148-172 at the current block: panics if it is terminated. -/
def B.terminate (b : B) (t : Term) : Option B :=
  match b.blocks[b.point]? with
  | some ⟨ops, none⟩ => some { b with blocks := b.blocks.set b.point ⟨ops, some t⟩ }
  | _ => none

/-- `innermost_pad` and `allocate_pad` emit_mir.rs:672-730, on the scopes from the innermost outwards. -/
def padOf : List Scope → B → Option Nat × List Scope × B
  | [], b => (none, [], b)
  | sc :: rest, b =>
    if sc.acts = [] then
      let r := padOf rest b
      (r.1, sc :: r.2.1, r.2.2)
    else
      match sc.pad with
      | some p => (some p, sc :: rest, b)
      | none =>
        let r := padOf rest b.add
        (some b.blocks.length, { sc with pad := some b.blocks.length } :: r.2.1,
          { r.2.2 with pads := r.2.2.pads ++ [⟨b.blocks.length, sc.acts.reverse, r.1⟩] })

/-- `innermost_pad` emit_mir.rs:679-686. -/
def B.innermost (b : B) : Option Nat × B :=
  let r := padOf b.scopes b
  (r.1, { r.2.2 with scopes := r.2.1 })

/-- `propagate_error_block` emit_mir.rs:2794-2805. -/
def B.propBlock (b : B) : Nat × B :=
  match b.prop with
  | some p => (p, b)
  | none => (b.blocks.length,
      { b with blocks := b.blocks ++ [⟨[], some .propagate⟩], prop := some b.blocks.length })

/-- `failure_during_cleanup_block` emit_mir.rs:2807-2818. -/
def B.poisonBlock (b : B) : Nat × B :=
  match b.poison with
  | some p => (p, b)
  | none => (b.blocks.length,
      { b with blocks := b.blocks ++ [⟨[], some .poison⟩], poison := some b.blocks.length })

/-- `CleanupUnwindTarget` emit_mir.rs:2908-2920. -/
inductive Target where
  | scope
  | pad (p : Nat)
  | propagate
  | poison
deriving DecidableEq

/-- The error successor chosen by `invoke`, emit_mir.rs:2773-2780. -/
def B.errorBlock (b : B) : Target → Nat × B
  | .scope =>
    match b.innermost with
    | (some p, b1) => (p, b1)
    | (none, b1) => b1.propBlock
  | .pad p => (p, b)
  | .propagate => b.propBlock
  | .poison => b.poisonBlock

/-- `invoke` emit_mir.rs:2770-2788. -/
def B.invoke (b : B) (t : Target) (o : Op) : Option B :=
  let r := b.add.errorBlock t
  (r.2.terminate (.invoke o b.blocks.length r.1)).map (fun b2 => { b2 with point := b.blocks.length })

/-- `insert` emit_mir.rs:2752-2767 while no cleanup is emitted. -/
def B.insert (b : B) (o : Op) : Option B :=
  if o.fallible then b.invoke .scope o else b.append o

/-- `emit_cleanup` emit_mir.rs:563-578: nothing if the block is terminated. -/
def B.emitCleanup (b : B) (t : Target) (o : Op) : Option B :=
  if b.terminated then some b
  else if o.fallible then b.invoke t o
  else b.append o

/-- The target of a fallible action with `rest` still to run, emit_mir.rs:647-657, with `allocate_actions_pad` 733-750. -/
def B.actionTarget (b : B) (rest : List Op) (outer : Option Nat) : Target × B :=
  match rest with
  | [] =>
    match outer with
    | some p => (.pad p, b)
    | none => (.propagate, b)
  | _ => (.pad b.blocks.length, { b.add with pads := b.pads ++ [⟨b.blocks.length, rest, outer⟩] })

/-- `emit_inline_cleanup_actions` emit_mir.rs:638-662. -/
def inline : List Op → Option Nat → B → Option B
  | [], _, b => some b
  | a :: rest, outer, b =>
    let r := if a.fallible then b.actionTarget rest outer else (.scope, b)
    (r.2.emitCleanup r.1 a).bind (inline rest outer)

/-- `enter_scope` emit_mir.rs:556-561. -/
def B.enterScope (b : B) (xs : List Nat) : B :=
  { b with scopes := ⟨xs.map .drop, none⟩ :: b.scopes }

/-- `exit_scope` emit_mir.rs:580-597: panics without a scope. -/
def B.exitScope (b : B) : Option B :=
  match b.scopes with
  | [] => none
  | sc :: rest =>
    let b1 : B := { b with scopes := rest }
    let r := if sc.acts.reverse.any Op.fallible then b1.innermost else (none, b1)
    inline sc.acts.reverse r.1 r.2

/-- The loop of `emit_unwind_drops` emit_mir.rs:609-636, for the innermost `k` scopes. -/
def unwind : Nat → List Scope → B → Option (List Scope × B)
  | 0, scs, b => some (scs, b)
  | _ + 1, [], b => some ([], b)
  | k + 1, sc :: rest, b =>
    let r := if sc.acts.reverse.any Op.fallible then padOf rest b else (none, rest, b)
    (inline sc.acts.reverse r.1 r.2.2).bind fun b1 =>
      (unwind k r.2.1 b1).map fun q => (sc :: q.1, q.2)

/-- `emit_unwind_drops` emit_mir.rs:609-636. -/
def B.unwindTo (b : B) (depth : Nat) : Option B :=
  (unwind (b.scopes.length - depth) b.scopes b).map fun q => { q.2 with scopes := q.1 }

/-- `loops.get` emit_mir.rs:600-606. -/
def frameOf (loops : List (Nat × Frame)) (l : Nat) : Option Frame :=
  (loops.find? (fun e => e.1 == l)).map (·.2)

/-- `create_case_blocks` emit_mir.rs:1710-1725: heads and bodies of the alternatives; the default and the tail follow. -/
def Arms.blocks : Arms → Nat → List (Nat × Nat)
  | .other _, _ => []
  | .alt _ _ rest, i => (i, i + 1) :: rest.blocks (i + 2)

/-- How many alternatives there are. -/
def Arms.count : Arms → Nat
  | .other _ => 0
  | .alt _ _ rest => rest.count + 1

/-- So many new blocks. -/
def B.addMany (b : B) (n : Nat) : B := { b with blocks := b.blocks ++ List.replicate n ⟨[], none⟩ }

/-- Ends the current block with a jump unless it is terminated. -/
def B.gotoUnless (b : B) (t : Nat) : Option B :=
  if b.terminated then some b else b.terminate (.goto t)

mutual
/-- `lower_value_into` emit_mir.rs:1930-2735; `none` is a panic. -/
def lower : Node → B → Option B
  | .op a f, b => b.insert (.act a f)
  -- 1937-1963
  | .block xs body, b => (lowerAll body (b.enterScope xs)).bind B.exitScope
  -- 1967-2062
  | .case n arms, b =>
    let i := b.blocks.length
    let d := i + 2 * arms.count
    (lower n (b.addMany (2 * arms.count + 2))).bind fun b1 =>
      (b1.terminate (.goto (((arms.blocks i).map (·.1)).headD d))).bind fun b2 =>
        lowerArms arms (arms.blocks i) d (d + 1) b2
  -- 2490-2533
  | .loop l body, b =>
    let i := b.blocks.length
    let b1 : B := { b.addMany 2 with
      loops := (l, ⟨i, i + 1, b.scopes.length⟩) :: b.loops.filter (fun e => e.1 != l) }
    (b1.terminate (.goto i)).bind fun b2 =>
      (lower body { b2 with point := i }).bind fun b3 =>
        (b3.gotoUnless i).map fun b4 =>
          { b4 with loops := b4.loops.filter (fun e => e.1 != l), point := i + 1 }
  -- 2535-2550
  | .brk l v, b =>
    (frameOf b.loops l).bind fun fr =>
      (lower v b).bind fun b1 =>
        if b1.terminated then some b1
        else (b1.unwindTo fr.depth).bind fun b2 => b2.terminate (.goto fr.exit)
  -- 2552-2560
  | .cont l, b =>
    (frameOf b.loops l).bind fun fr =>
      (b.unwindTo fr.depth).bind fun b1 => b1.terminate (.goto fr.head)
  -- 2696-2712
  | .ret v, b =>
    (lower v b).bind fun b1 => (b1.unwindTo 0).bind fun b2 => b2.terminate .ret
  -- 2676-2685 and lower_with_yielded_enter 1558-1650
  | .scoped xs pre args p f body, b =>
    (lowerAll pre b).bind fun b1 =>
      if b1.terminated then
        (lower body (b1.enterScope [])).bind B.exitScope
      else
        (lowerEach args b1).bind fun b2 =>
          ((b2.enterScope xs).insert (.enter p f)).bind fun b3 =>
            match b3.scopes with
            | [] => none
            | sc :: rest =>
              (lower body { b3 with scopes := ⟨sc.acts ++ [.slide p f], none⟩ :: rest }).bind B.exitScope

/-- The statements of a block: none once the block is terminated, 1946-1960. -/
def lowerAll : Nodes → B → Option B
  | .nil, b => some b
  | .cons n rest, b => if b.terminated then some b else (lower n b).bind (lowerAll rest)

/-- The arguments of an accessor, 1617-1622. -/
def lowerEach : Nodes → B → Option B
  | .nil, b => some b
  | .cons n rest, b => (lower n b).bind (lowerEach rest)

/-- The alternatives and the default of a case, 1999-2061. -/
def lowerArms : Arms → List (Nat × Nat) → Nat → Nat → B → Option B
  | .other n, _, d, tail, b =>
    (lower n { b with point := d }).bind fun b1 =>
      (b1.gotoUnless tail).map fun b2 => { b2 with point := tail }
  | .alt t n rest, hb :: more, d, tail, b =>
    (B.terminate { b with point := hb.1 } (.branch t hb.2 ((more.map (·.1)).headD d))).bind fun b1 =>
      (lower n { b1 with point := hb.2 }).bind fun b2 =>
        (b2.gotoUnless tail).bind fun b3 => lowerArms rest more d tail b3
  | .alt _ _ _, [], _, _, _ => none
end

/-- The actions of a pad, with a failure poisoning, emit_mir.rs:757-766. -/
def emitPad : List Op → B → Option B
  | [], b => some b
  | a :: rest, b => (b.emitCleanup .poison a).bind (emitPad rest)

/-- One pad of `fill_pending_pads` emit_mir.rs:752-772. -/
def fillPad (p : Pad) (b : B) : Option B :=
  (emitPad p.acts { b with point := p.block }).bind fun b1 =>
    match p.outer with
    | some o => b1.terminate (.goto o)
    | none => b1.terminate .propagate

/-- `fill_pending_pads` emit_mir.rs:752-772. -/
def fillPads : List Pad → B → Option B
  | [], b => some b
  | p :: rest, b => (fillPad p b).bind (fillPads rest)

/-- The builder before the body is lowered. -/
def B.start : B := ⟨[⟨[], none⟩], 0, [], [], [], none, none⟩

/-- The end of a body, emit_mir.rs:315-318. -/
def B.endBody (b : B) : Option B :=
  if b.terminated then some b else b.terminate .ret

/-- The lowering of a function, emit_mir.rs:290-326, with `finish` builder.rs:208-245, which panics if a block is not
terminated. -/
def compile (n : Node) : Option (List Block) :=
  (lower n B.start).bind fun b =>
    b.endBody.bind fun b1 =>
      (fillPads b1.pads { b1 with pads := [] }).bind fun b2 =>
        if b2.blocks.all (·.term.isSome) then some b2.blocks else none

/-! ### Running blocks -/

/-- A place in the function with the state, or the end. -/
inductive Conf (σ : Type) where
  | at (ops : List Op) (term : Option Term) (s : σ)
  | fin (o : Out) (s : σ)

/-- The start of a block. -/
def startOf {σ : Type} (bs : List Block) (b : Nat) (s : σ) : Conf σ :=
  match bs[b]? with
  | some blk => .at blk.ops blk.term s
  | none => .at [] none s

/-- One step of the execution of mir, mir/interpreter.rs: operations in order, then the terminator. -/
def stepOf {σ : Type} (W : World σ) (bs : List Block) : Conf σ → Option (Conf σ)
  | .at (o :: ops) t s => some (.at ops t (W.go o s).1)
  | .at [] (some (.goto b)) s => some (startOf bs b s)
  | .at [] (some (.branch t y n)) s => some (startOf bs (if W.test t s then y else n) s)
  | .at [] (some (.invoke o n e)) s =>
    match W.go o s with
    | (s1, true) => some (startOf bs n s1)
    | (s1, false) => some (startOf bs e s1)
  | .at [] (some .ret) s => some (.fin .ret s)
  | .at [] (some .propagate) s => some (.fin .fail s)
  | .at [] (some .poison) s => some (.fin .poison s)
  | .at [] none _ => none
  | .fin _ _ => none

/-- So many steps. -/
def steps {σ : Type} (W : World σ) (bs : List Block) : Nat → Conf σ → Option (Conf σ)
  | 0, c => some c
  | n + 1, c => (stepOf W bs c).bind (steps W bs n)

end Ferlium.Cleanup
