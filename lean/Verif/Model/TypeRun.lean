import Verif.Model.TypeInfer

/-!
What a program of the core language does when it runs, without types: calls of values which are not functions, wrong numbers
of arguments, conditions which are not booleans, and unknown names go wrong.

Closures copy the variables they capture (C58), arguments are evaluated in order, and an assignment changes the innermost
variable of the name.  Number representation, memory and drops are not modelled.
-/
namespace Ferlium.TypeInfer

/-- A value. -/
inductive Val
  | lit (type payload : Nat)
  | tuple (items : List Val)
  | fn (f : Nat)
  | closure (params : List Name) (body : Expr) (env : List (Name × Val))

/-- The variables, the last one first. -/
abbrev Env := List (Name × Val)

/-- What evaluation comes to. -/
inductive Res (α : Type)
  | ok (a : α)
  /-- A `return` which has not reached its function. -/
  | returns (v : Val)
  /-- A failure which the language knows, as by `panic`. -/
  | fails
  /-- Not yet finished. -/
  | timeout
  /-- An operation on values it does not exist for. -/
  | wrong

/-- What a native function does: a value or a failure, or nothing sensible. -/
inductive NativeRes
  | value (v : Val)
  | fails
  | wrong

/-- A program: its native functions with their types and its functions in groups. -/
structure Program where
  natives : List Sig
  impl : Nat → List Val → NativeRes
  groups : List (List Fn)

/-- A script function. -/
def Program.script (p : Program) (f : Nat) : Option Fn := if f < p.natives.length then none else p.groups.flatten[f - p.natives.length]?

/-- The innermost variable of the name. -/
def lookup (x : Name) : List (Name × α) → Option α
  | [] => none
  | (y, a) :: rest => if y = x then some a else lookup x rest

/-- Bind the parameters one after the other. -/
def bindParams : List Name → List α → List (Name × α) → List (Name × α)
  | x :: xs, a :: as, env => bindParams xs as ((x, a) :: env)
  | _, _, env => env

/-- The variables whose names are not those of parameters. -/
def without (params : List Name) : List (Name × α) → List (Name × α)
  | [] => []
  | (y, a) :: rest => if y ∈ params then without params rest else (y, a) :: without params rest

/-- One after the other. -/
def Res.bind (r : Res α) (k : α → Res β) : Res β :=
  match r with
  | .ok a => k a
  | .returns v => .returns v
  | .fails => .fails
  | .timeout => .timeout
  | .wrong => .wrong

/-- The end of a function. -/
def Res.finish (r : Res (Val × Env)) : Res Val :=
  match r with
  | .ok a => .ok a.1
  | .returns v => .ok v
  | .fails => .fails
  | .timeout => .timeout
  | .wrong => .wrong

/-- A value or wrong. -/
def Res.ofOption (o : Option α) : Res α :=
  match o with
  | some a => .ok a
  | none => .wrong

/-- Change the innermost variable of the name. -/
def assign (x : Name) (v : Val) : Env → Option Env
  | [] => none
  | (y, w) :: rest => if x = y then some ((y, v) :: rest) else (assign x v rest).map ((y, w) :: ·)

/-- A native function at work. -/
def Res.ofNative : NativeRes → Res Val
  | .value v => .ok v
  | .fails => .fails
  | .wrong => .wrong

/-- The condition of an `if`. -/
def Val.isTrue : Val → Option Bool
  | .lit 0 payload => some (payload != 0)
  | _ => none

mutual

/-- Evaluate an expression, in at most the given number of steps. -/
def eval (p : Program) (fuel : Nat) (env : Env) (e : Expr) : Res (Val × Env) :=
  match fuel with
  | 0 => .timeout
  | fuel + 1 =>
    match e with
    | .lit k n => .ok (.lit k n, env)
    | .local x => (Res.ofOption (lookup x env)).bind fun v => .ok (v, env)
    | .fn f => .ok (.fn f, env)
    | .abs params body => .ok (.closure params body (without params env), env)
    | .app callee args =>
      (eval p fuel env callee).bind fun f => (evalAll p fuel f.2 args).bind fun a =>
        (apply p fuel f.1 a.1).bind fun v => .ok (v, a.2)
    | .call f args => (evalAll p fuel env args).bind fun a => (callFn p fuel f a.1).bind fun v => .ok (v, a.2)
    | .block body => (evalStmts p fuel env (.tuple []) body).bind fun r => .ok (r.1, r.2.drop (r.2.length - env.length))
    | .assign x value => (eval p fuel env value).bind fun v =>
        (Res.ofOption (assign x v.1 v.2)).bind fun env => .ok (.tuple [], env)
    | .tuple items => (evalAll p fuel env items).bind fun a => .ok (.tuple a.1, a.2)
    | .ite cond yes no => (eval p fuel env cond).bind fun b => (Res.ofOption b.1.isTrue).bind fun t =>
        if t then eval p fuel b.2 yes else eval p fuel b.2 no
    | .ret value => (eval p fuel env value).bind fun v => .returns v.1

/-- Evaluate expressions one after the other. -/
def evalAll (p : Program) (fuel : Nat) (env : Env) (es : Exprs) : Res (List Val × Env) :=
  match fuel with
  | 0 => .timeout
  | fuel + 1 =>
    match es with
    | .nil => .ok ([], env)
    | .cons e rest => (eval p fuel env e).bind fun v => (evalAll p fuel v.2 rest).bind fun r => .ok (v.1 :: r.1, r.2)

/-- Evaluate statements; `last` is the value of the statement before. -/
def evalStmts (p : Program) (fuel : Nat) (env : Env) (last : Val) (body : Stmts) : Res (Val × Env) :=
  match fuel with
  | 0 => .timeout
  | fuel + 1 =>
    match body with
    | .nil => .ok (last, env)
    | .bind x _ e rest => (eval p fuel env e).bind fun v => evalStmts p fuel ((x, v.1) :: v.2) (.tuple []) rest
    | .expr e rest => (eval p fuel env e).bind fun v => evalStmts p fuel v.2 v.1 rest

/-- Call a value. -/
def apply (p : Program) (fuel : Nat) (f : Val) (args : List Val) : Res Val :=
  match fuel with
  | 0 => .timeout
  | fuel + 1 =>
    match f with
    | .closure params body env =>
      if params.length = args.length then (eval p fuel (bindParams params args env) body).finish else .wrong
    | .fn f => callFn p fuel f args
    | _ => .wrong

/-- Call a function. -/
def callFn (p : Program) (fuel : Nat) (f : Nat) (args : List Val) : Res Val :=
  match fuel with
  | 0 => .timeout
  | fuel + 1 =>
    if f < p.natives.length then Res.ofNative (p.impl f args)
    else
      match p.script f with
      | some fn => if fn.params.length = args.length then (eval p fuel (bindParams fn.params args []) fn.body).finish else .wrong
      | none => .wrong

end

end Ferlium.TypeInfer
