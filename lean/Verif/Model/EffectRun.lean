import Verif.Model.EffectInfer

/-!
# Running the programs of the effect core

A reference semantics for the core language of `Verif.Model.EffectInfer`, independent of the
inference: what a function does when it is called with given callbacks, as the list of the
primitive effects performed so far.  It corresponds to the evaluation of calls in
`src/eval/mod.rs`: arguments are closures over the callbacks in scope, statements run in order.
A native function performs the effects of its type.
-/

namespace Ferlium.EffInfer

/-- A callback at run time: a closure with the callbacks it captured, or a function. -/
inductive Clo where
  | lam (env : List Clo) (body : List Stmt)
  | fn (g : Nat)

/-- The primitive effects in a set, in order. -/
def Prims.list (s : Prims) : List Prim := Ferlium.Effects.allPrims.filter s.has

/-- The callback an argument evaluates to. -/
def Arg.close (env : List Clo) : Arg → Option Clo
  | .param j => env[j]?
  | .lam body => some (.lam env body)
  | .fn g => some (.fn g)

/-- Running statements for at most `n` nested steps: the effects performed and whether the end was
reached. -/
def run (P : List Decl) : Nat → List Clo → List Stmt → List Prim × Bool
  | 0, _, _ => ([], false)
  | _ + 1, _, [] => ([], true)
  | n + 1, env, s :: rest =>
    let now : List Prim × Bool :=
      match s with
      | .native e => (e.list, true)
      | .callParam i =>
        match env[i]? with
        | none => ([], false)
        | some (.lam env' body) => run P n env' body
        | some (.fn g) =>
          match P[g]? with
          | none => ([], false)
          | some d => run P n [] d.body
      | .callFn f args =>
        match args.mapM (Arg.close env), P[f]? with
        | some cs, some d => run P n cs d.body
        | _, _ => ([], false)
    if now.2 then
      let later := run P n env rest
      (now.1 ++ later.1, later.2)
    else (now.1, false)

/-- The effects performed by a callback within `n` steps. -/
def Clo.run (P : List Decl) (n : Nat) : Clo → List Prim
  | .lam env body => (Ferlium.EffInfer.run P n env body).1
  | .fn g =>
    match P[g]? with
    | none => []
    | some d => (Ferlium.EffInfer.run P n [] d.body).1

end Ferlium.EffInfer
