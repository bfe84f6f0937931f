import Verif.Model.TypeSpec

/-!
Well-typed programs of the core language do not go wrong.
-/
namespace Ferlium.TypeInfer

open Unify (Ty Args Head Table)

theorem parts_inj : ∀ {a b : List Ty}, parts a = parts b → a = b
  | [], [], _ => rfl
  | [], _ :: _, h => by simp [parts] at h
  | _ :: _, [], h => by simp [parts] at h
  | x :: xs, y :: ys, h => by
    simp only [parts, Args.cons.injEq, true_and] at h
    rw [h.1, parts_inj h.2]

theorem fnTy_inj {a b : List Ty} {r s : Ty} (h : fnTy a r = fnTy b s) : a = b ∧ r = s := by
  simp only [fnTy, Ty.node.injEq, true_and] at h
  have := parts_inj h
  have h2 := List.append_inj' this rfl
  simpa using h2

theorem tupleTy_inj {a b : List Ty} (h : tupleTy a = tupleTy b) : a = b := by
  simp only [tupleTy, Ty.node.injEq, true_and] at h
  exact parts_inj h

variable {I : Insts} {p : Program}

theorem VTy.two {v : Val} (h0 : VTy I v (native 0)) (h1 : VTy I v (native 1)) : False := by
  generalize ht : native 0 = t at h0
  generalize ht' : native 1 = t' at h1
  cases h0 with
  | lit =>
    cases h1 with
    | lit => simp [native] at ht ht'; omega
  | tuple => simp [native, tupleTy] at ht
  | fn => simp [native, fnTy] at ht
  | closure => simp [native, fnTy] at ht

theorem VTy.bool_inv {v : Val} (h : VTy I v bool) : ∃ b, v.isTrue = some b := by
  generalize ht : bool = t at h
  cases h with
  | lit =>
    simp only [bool, native, Ty.node.injEq, Head.native.injEq, and_true] at ht
    subst ht
    exact ⟨_, rfl⟩
  | tuple => simp [bool, native, tupleTy] at ht
  | fn => simp [bool, native, fnTy] at ht
  | closure => simp [bool, native, fnTy] at ht

theorem VTys.length : ∀ {vs : List Val} {ts : List Ty}, VTys I vs ts → vs.length = ts.length
  | _, _, .nil => rfl
  | _, _, .cons _ h => by rw [List.length_cons, List.length_cons, h.length]

theorem EnvTy.lookup : ∀ {env : Env} {Γ : Locals}, EnvTy I env Γ → ∀ {x m τ}, lookup x Γ = some (m, τ) →
    ∃ v, TypeInfer.lookup x env = some v ∧ VTy I v τ
  | _, _, .nil, _, _, _, h => by simp [TypeInfer.lookup] at h
  | _, _, .cons (x := y) (v := w) hv he, x, m, τ, h => by
    simp only [TypeInfer.lookup] at h ⊢
    by_cases hx : y = x
    · rw [if_pos hx] at h ⊢
      cases h
      exact ⟨w, rfl, hv⟩
    · rw [if_neg hx] at h ⊢
      exact he.lookup h

theorem EnvTy.assign : ∀ {env : Env} {Γ : Locals}, EnvTy I env Γ → ∀ {x m τ v}, TypeInfer.lookup x Γ = some (m, τ) → VTy I v τ →
    ∃ env', TypeInfer.assign x v env = some env' ∧ EnvTy I env' Γ
  | _, _, .nil, _, _, _, _, h, _ => by simp [TypeInfer.lookup] at h
  | _, _, .cons (x := y) (v := w) hw he, x, m, τ, v, h, hv => by
    simp only [TypeInfer.lookup] at h
    simp only [TypeInfer.assign]
    by_cases hx : y = x
    · rw [if_pos hx] at h
      cases h
      rw [if_pos hx.symm]
      exact ⟨_, rfl, .cons hv he⟩
    · rw [if_neg hx] at h
      rw [if_neg (Ne.symm hx)]
      obtain ⟨env', h1, h2⟩ := he.assign h hv
      exact ⟨_, by rw [h1]; rfl, .cons hw h2⟩

theorem EnvTy.without {params : List Name} : ∀ {env : Env} {Γ : Locals}, EnvTy I env Γ →
    EnvTy I (TypeInfer.without params env) (TypeInfer.without params Γ)
  | _, _, .nil => .nil
  | _, _, .cons (x := y) hv he => by
    simp only [TypeInfer.without]
    split
    · exact he.without
    · exact .cons hv he.without

theorem EnvTy.bindParams : ∀ {params : List Name} {vs : List Val} {ts : List Ty} {env : Env} {Γ : Locals}, VTys I vs ts →
    EnvTy I env Γ → EnvTy I (TypeInfer.bindParams params vs env) (TypeInfer.bindParams params (paramTys ts) Γ)
  | [], _, _, _, _, h, he => by
    cases h <;> exact he
  | x :: xs, _, _, _, _, .nil, he => he
  | x :: xs, _, _, _, _, .cons hv h, he => by
    show EnvTy I (TypeInfer.bindParams xs _ _) (TypeInfer.bindParams xs (paramTys _) _)
    exact EnvTy.bindParams h (.cons hv he)

theorem EnvTy.length : ∀ {env : Env} {Γ : Locals}, EnvTy I env Γ → env.length = Γ.length
  | _, _, .nil => rfl
  | _, _, .cons _ h => by rw [List.length_cons, List.length_cons, h.length]

theorem EnvTy.drop : ∀ {Γ' : Locals} {env : Env} {Γ : Locals}, EnvTy I env (Γ' ++ Γ) → EnvTy I (env.drop Γ'.length) Γ
  | [], _, _, h => h
  | _ :: Γ', _, _, .cons _ h => by simpa using EnvTy.drop h

/-- The result is as it should be. -/
def Sound (I : Insts) (ρ : Ty) (Q : α → Prop) : Res α → Prop
  | .ok a => Q a
  | .returns v => VTy I v ρ
  | .fails => True
  | .timeout => True
  | .wrong => False

theorem Sound.bind {ρ : Ty} {Q : α → Prop} {Q' : β → Prop} {r : Res α} {k : α → Res β} (h : Sound I ρ Q r)
    (hk : ∀ a, Q a → Sound I ρ Q' (k a)) : Sound I ρ Q' (r.bind k) := by
  cases r with
  | ok a => exact hk a h
  | returns v => exact h
  | fails => trivial
  | timeout => trivial
  | wrong => exact h

theorem Sound.and {ρ : Ty} {Q Q' : α → Prop} {r : Res α} (h : Sound I ρ Q r) (h' : Sound I ρ Q' r) : Sound I ρ (fun a => Q a ∧ Q' a) r := by
  cases r with
  | ok a => exact ⟨h, h'⟩
  | returns v => exact h
  | fails => trivial
  | timeout => trivial
  | wrong => exact h

theorem Sound.imp {ρ : Ty} {Q Q' : α → Prop} {r : Res α} (h : Sound I ρ Q r) (hQ : ∀ a, Q a → Q' a) : Sound I ρ Q' r := by
  cases r with
  | ok a => exact hQ a h
  | returns v => exact h
  | fails => trivial
  | timeout => trivial
  | wrong => exact h

/-- A call is as it should be: there is no `return` any more. -/
def SoundCall (I : Insts) (r : Ty) : Res Val → Prop
  | .ok v => VTy I v r
  | .returns _ => False
  | .fails => True
  | .timeout => True
  | .wrong => False

theorem Sound.finish {ρ : Ty} {Γ : Locals} {r : Res (Val × Env)} (h : Sound I ρ (fun a => VTy I a.1 ρ ∧ EnvTy I a.2 Γ) r) :
    SoundCall I ρ r.finish := by
  cases r with
  | ok a => exact h.1
  | returns v => exact h
  | fails => trivial
  | timeout => trivial
  | wrong => exact h

theorem SoundCall.sound {ρ r : Ty} {c : Res Val} (h : SoundCall I r c) : Sound I ρ (fun v => VTy I v r) c := by
  cases c with
  | ok a => exact h
  | returns v => exact h.elim
  | fails => trivial
  | timeout => trivial
  | wrong => exact h

/-- The functions have the types. -/
def FnsOk (I : Insts) (p : Program) : Prop :=
  ∀ f args r, I f args r →
    (f < p.natives.length → ∀ vs, VTys I vs args → SoundCall I r (Res.ofNative (p.impl f vs))) ∧
    (¬ f < p.natives.length → ∃ fn, p.script f = some fn ∧ fn.params.length = args.length ∧
      HasTy I r (bindParams fn.params (paramTys args) []) fn.body r)

/-- The claims for one number of steps. -/
structure Claims (I : Insts) (p : Program) (fuel : Nat) : Prop where
  expr : ∀ {ρ Γ e τ env}, HasTy I ρ Γ e τ → EnvTy I env Γ → Sound I ρ (fun a => VTy I a.1 τ ∧ EnvTy I a.2 Γ) (eval p fuel env e)
  all : ∀ {ρ Γ es ts env}, HasTys I ρ Γ es ts → EnvTy I env Γ → Sound I ρ (fun a => VTys I a.1 ts ∧ EnvTy I a.2 Γ) (evalAll p fuel env es)
  diverge : ∀ {ρ Γ es env}, Diverge I ρ Γ es → EnvTy I env Γ → Sound I ρ (fun _ => False) (evalAll p fuel env es)
  stmts : ∀ {ρ Γ last s τ env v}, StmtsTy I ρ Γ last s τ → EnvTy I env Γ → VTy I v last →
    Sound I ρ (fun a => VTy I a.1 τ ∧ ∃ Γ', EnvTy I a.2 (Γ' ++ Γ)) (evalStmts p fuel env v s)
  apply : ∀ {f vs args r}, VTy I f (fnTy args r) → VTys I vs args → SoundCall I r (apply p fuel f vs)
  call : ∀ {f vs args r}, I f args r → VTys I vs args → SoundCall I r (callFn p fuel f vs)

theorem Claims.none {fuel : Nat} (h : Claims I p fuel) {ρ Γ e env} (h0 : HasTy I ρ Γ e (native 0)) (h1 : HasTy I ρ Γ e (native 1))
    (he : EnvTy I env Γ) : Sound I ρ (fun _ => False) (eval p fuel env e) :=
  ((h.expr h0 he).and (h.expr h1 he)).imp fun _ ha => ha.1.1.two ha.2.1

theorem claims (hp : FnsOk I p) : ∀ fuel, Claims I p fuel
  | 0 => by
    constructor <;> intros <;> first | trivial | skip
    all_goals simp [eval, evalAll, evalStmts, TypeInfer.apply, callFn, Sound, SoundCall]
  | fuel + 1 => by
    have ih := claims hp fuel
    constructor
    · intro ρ Γ e τ env h he
      cases h with
      | lit => exact ⟨.lit, he⟩
      | «local» h =>
        obtain ⟨v, h1, h2⟩ := he.lookup h
        simp only [eval, h1, Res.ofOption, Res.bind]
        exact ⟨h2, he⟩
      | fn h => exact ⟨.fn h, he⟩
      | abs hl hb => exact ⟨.closure hl he.without hb, he⟩
      | app hf ha =>
        simp only [eval]
        exact (ih.expr hf he).bind fun f hf => (ih.all ha hf.2).bind fun a ha => (ih.apply hf.1 ha.1).sound.bind fun v hv => ⟨hv, ha.2⟩
      | appCallee h0 h1 =>
        simp only [eval]
        exact (ih.none h0 h1 he).bind fun _ h => h.elim
      | appArgs hf ha =>
        simp only [eval]
        exact (ih.expr hf he).bind fun f hf => (ih.diverge ha hf.2).bind fun _ h => h.elim
      | call hf ha =>
        simp only [eval]
        exact (ih.all ha he).bind fun a ha => (ih.call hf ha.1).sound.bind fun v hv => ⟨hv, ha.2⟩
      | callArgs ha =>
        simp only [eval]
        exact (ih.diverge ha he).bind fun _ h => h.elim
      | block hb =>
        simp only [eval]
        refine (ih.stmts hb he (v := .tuple []) (.tuple .nil)).bind fun a ha => ⟨ha.1, ?_⟩
        obtain ⟨Γ', hΓ⟩ := ha.2
        have : a.2.length - env.length = Γ'.length := by
          rw [hΓ.length, he.length, List.length_append]; omega
        show EnvTy I (a.2.drop (a.2.length - env.length)) Γ
        rw [this]
        exact hΓ.drop
      | assign hx hv =>
        simp only [eval]
        refine (ih.expr hv he).bind fun a ha => ?_
        obtain ⟨env', h1, h2⟩ := ha.2.assign hx ha.1
        rw [h1]
        exact ⟨.tuple .nil, h2⟩
      | assignValue h0 h1 =>
        simp only [eval]
        exact (ih.none h0 h1 he).bind fun _ h => h.elim
      | tuple ha =>
        simp only [eval]
        exact (ih.all ha he).bind fun a ha => ⟨.tuple ha.1, ha.2⟩
      | tupleItems ha =>
        simp only [eval]
        exact (ih.diverge ha he).bind fun _ h => h.elim
      | ite hc ha hb =>
        simp only [eval]
        refine (ih.expr hc he).bind fun c hc => ?_
        obtain ⟨b, hb'⟩ := hc.1.bool_inv
        rw [hb']
        show Sound I ρ _ (if b = true then _ else _)
        cases b
        · exact ih.expr hb hc.2
        · exact ih.expr ha hc.2
      | iteCond h0 h1 =>
        simp only [eval]
        exact (ih.none h0 h1 he).bind fun _ h => h.elim
      | ret hv =>
        simp only [eval]
        exact (ih.expr hv he).bind fun a ha => ha.1
    · intro ρ Γ es ts env h he
      cases h with
      | nil => exact ⟨.nil, he⟩
      | cons h hs =>
        simp only [evalAll]
        exact (ih.expr h he).bind fun a ha => (ih.all hs ha.2).bind fun b hb => ⟨.cons ha.1 hb.1, hb.2⟩
    · intro ρ Γ es env h he
      cases h with
      | here h0 h1 =>
        simp only [evalAll]
        exact (ih.none h0 h1 he).bind fun _ h => h.elim
      | later h hs =>
        simp only [evalAll]
        exact (ih.expr h he).bind fun a ha => (ih.diverge hs ha.2).bind fun _ h => h.elim
    · intro ρ Γ last s τ env v h he hv
      cases h with
      | nil => exact ⟨hv, [], he⟩
      | bind h hs =>
        simp only [evalStmts]
        refine (ih.expr h he).bind fun a ha => (ih.stmts hs (.cons ha.1 ha.2) (.tuple .nil)).imp fun b hb => ⟨hb.1, ?_⟩
        obtain ⟨Γ', hΓ⟩ := hb.2
        exact ⟨Γ' ++ [_], by rw [List.append_assoc]; exact hΓ⟩
      | bindValue h0 h1 =>
        simp only [evalStmts]
        exact (ih.none h0 h1 he).bind fun _ h => h.elim
      | expr h hs =>
        simp only [evalStmts]
        exact (ih.expr h he).bind fun a ha => ih.stmts hs ha.2 ha.1
      | exprValue h0 h1 =>
        simp only [evalStmts]
        exact (ih.none h0 h1 he).bind fun _ h => h.elim
    · intro f vs args r h hv
      generalize ht : fnTy args r = t at h
      cases h with
      | lit => simp [native, fnTy] at ht
      | tuple => simp [tupleTy, fnTy] at ht
      | fn h =>
        obtain ⟨rfl, rfl⟩ := fnTy_inj ht
        exact ih.call h hv
      | closure hl he hb =>
        obtain ⟨rfl, rfl⟩ := fnTy_inj ht
        simp only [TypeInfer.apply]
        rw [if_pos (hl.trans hv.length.symm)]
        exact (ih.expr hb (he.bindParams hv)).finish
    · intro f vs args r h hv
      simp only [callFn]
      split
      · next hf => exact (hp f args r h).1 hf vs hv
      · next hf =>
        obtain ⟨fn, h1, h2, h3⟩ := (hp f args r h).2 hf
        rw [h1]
        dsimp only
        rw [if_pos (h2.trans hv.length.symm)]
        exact (ih.expr h3 (EnvTy.nil.bindParams hv)).finish

end Ferlium.TypeInfer
