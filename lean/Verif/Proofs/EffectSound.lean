import Verif.Model.EffectRun
import Verif.Proofs.EffectSolve

/-!
# A declarative effect system for the core programs, its soundness for runs, and what inference
satisfies for every solution of its inclusions
-/

namespace Ferlium.EffInfer

/-- The primitive effects an effect stands for, given those of its variables. -/
def den (θ : Nat → Prim → Prop) (e : Eff) (p : Prim) : Prop := e.prims.has p = true ∨ ∃ v ∈ e.vars, θ v p

mutual

/-- A statement does at most `ε`, in an environment of callbacks which do at most `Φ`. -/
def StmtOK (S : List Scheme) (Φ : List (Prim → Prop)) : Stmt → (Prim → Prop) → Prop
  | .native e, ε => ∀ p, e.has p = true → ε p
  | .callParam i, ε => ∃ F, Φ[i]? = some F ∧ ∀ p, F p → ε p
  | .callFn f args, ε =>
    ∃ s, S[f]? = some s ∧ ∃ θ : Nat → Prim → Prop, ArgsOK S Φ args (s.params.map (den θ)) ∧
      ∀ p, den θ s.eff p → ε p

def ArgsOK (S : List Scheme) (Φ : List (Prim → Prop)) : List Arg → List (Prim → Prop) → Prop
  | [], Fs => Fs = []
  | a :: as, Fs => ∃ F Gs, Fs = F :: Gs ∧ ArgOK S Φ a F ∧ ArgsOK S Φ as Gs

def ArgOK (S : List Scheme) (Φ : List (Prim → Prop)) : Arg → (Prim → Prop) → Prop
  | .param j, F => ∃ G, Φ[j]? = some G ∧ ∀ p, G p → F p
  | .lam body, F => StmtsOK S Φ body F
  | .fn g, F => ∃ s, S[g]? = some s ∧ s.params = [] ∧ ∃ θ : Nat → Prim → Prop, ∀ p, den θ s.eff p → F p

def StmtsOK (S : List Scheme) (Φ : List (Prim → Prop)) : List Stmt → (Prim → Prop) → Prop
  | [], _ => True
  | s :: ss, ε => StmtOK S Φ s ε ∧ StmtsOK S Φ ss ε

end

/-- The types `S` describe the program `P`. -/
def WellEff (P : List Decl) (S : List Scheme) : Prop :=
  ∀ (i : Nat) (d : Decl), P[i]? = some d → ∃ s : Scheme, S[i]? = some s ∧ ∀ θ : Nat → Prim → Prop, StmtsOK S (s.params.map (den θ)) d.body (den θ s.eff)

/-- A callback does at most `F` within `n` steps. -/
def CloOK (P : List Decl) (n : Nat) (F : Prim → Prop) (c : Clo) : Prop := ∀ m ≤ n, ∀ p ∈ c.run P m, F p

theorem close_ok {P : List Decl} {S : List Scheme} (hP : WellEff P S) {n : Nat}
    (ih : ∀ m < n + 1, ∀ (env : List Clo) (Φ : List (Prim → Prop)) (stmts : List Stmt) (ε : Prim → Prop),
      List.Forall₂ (fun c F => CloOK P m F c) env Φ → StmtsOK S Φ stmts ε → ∀ p ∈ (run P m env stmts).1, ε p)
    {env : List Clo} {Φ : List (Prim → Prop)} (henv : List.Forall₂ (fun c F => CloOK P n F c) env Φ) :
    ∀ (args : List Arg) (Fs : List (Prim → Prop)) (cs : List Clo), ArgsOK S Φ args Fs →
      args.mapM (Arg.close env) = some cs → List.Forall₂ (fun c F => CloOK P n F c) cs Fs := by
  intro args
  induction args with
  | nil =>
    intro Fs cs h hm
    simp only [ArgsOK] at h
    simp only [List.mapM_nil] at hm
    cases hm; subst h; exact .nil
  | cons a as iha =>
    intro Fs cs h hm
    simp only [ArgsOK] at h
    obtain ⟨F, Gs, rfl, ha, has⟩ := h
    rw [List.mapM_cons] at hm
    cases hc : a.close env with
    | none => rw [hc] at hm; cases hm
    | some c =>
      rw [hc] at hm
      cases hcs : as.mapM (Arg.close env) with
      | none =>
        simp only [hcs] at hm; cases hm
      | some cs' =>
        simp only [hcs] at hm
        cases hm
        refine .cons ?_ (iha Gs cs' has hcs)
        cases a with
        | param j =>
          simp only [ArgOK] at ha
          obtain ⟨G, hG, hle⟩ := ha
          simp only [Arg.close] at hc
          have := List.forall₂_iff_get.mp henv
          obtain ⟨hl, hget⟩ := this
          obtain ⟨hj, rfl⟩ := List.getElem?_eq_some_iff.mp hc
          obtain ⟨hj', rfl⟩ := List.getElem?_eq_some_iff.mp hG
          intro m hm p hp
          exact hle p (hget j hj hj' m hm p hp)
        | lam body =>
          simp only [ArgOK] at ha
          simp only [Arg.close, Option.some.injEq] at hc
          subst hc
          intro m hm p hp
          refine ih m (by omega) env Φ body F (henv.imp fun c G h k hk => h k (le_trans hk hm)) ha p hp
        | fn g =>
          simp only [ArgOK] at ha
          obtain ⟨s, hs, hps, θ, hle⟩ := ha
          simp only [Arg.close, Option.some.injEq] at hc
          subst hc
          intro m hm p hp
          simp only [Clo.run] at hp
          cases hd : P[g]? with
          | none => rw [hd] at hp; cases hp
          | some d =>
            rw [hd] at hp
            obtain ⟨s', hs', hb⟩ := hP g d hd
            rw [hs] at hs'; cases hs'
            have := hb θ
            rw [hps] at this
            exact hle p (ih m (by omega) [] [] d.body _ .nil this p hp)

/-- **Soundness of the declarative system**: a run does at most what its types tell. -/
theorem run_sound {P : List Decl} {S : List Scheme} (hP : WellEff P S) (n : Nat) :
    ∀ (env : List Clo) (Φ : List (Prim → Prop)) (stmts : List Stmt) (ε : Prim → Prop),
      List.Forall₂ (fun c F => CloOK P n F c) env Φ → StmtsOK S Φ stmts ε → ∀ p ∈ (run P n env stmts).1, ε p := by
  induction n using Nat.strong_induction_on with
  | _ n ih =>
    intro env Φ stmts ε henv hok p hp
    cases n with
    | zero => simp only [run] at hp; cases hp
    | succ n =>
      cases stmts with
      | nil => simp only [run] at hp; cases hp
      | cons s rest =>
        simp only [StmtsOK] at hok
        have henv' : List.Forall₂ (fun c F => CloOK P n F c) env Φ :=
          henv.imp fun c F h k hk => h k (by omega)
        have later : ∀ p ∈ (run P n env rest).1, ε p := ih n (by omega) env Φ rest ε henv' hok.2
        have split : ∀ now : List Prim × Bool, (∀ q ∈ now.1, ε q) →
            p ∈ (if now.2 then (now.1 ++ (run P n env rest).1, (run P n env rest).2) else (now.1, false)).1 →
            ε p := by
          intro now hnow h
          split at h
          · rcases List.mem_append.mp h with h | h
            · exact hnow p h
            · exact later p h
          · exact hnow p h
        simp only [run] at hp
        refine split _ ?_ hp
        clear hp split later
        obtain ⟨hs, _⟩ := hok
        intro q hq
        cases s with
        | native e =>
          simp only [StmtOK] at hs
          simp only [Prims.list] at hq
          exact hs q (List.mem_filter.mp hq).2
        | callParam i =>
          simp only [StmtOK] at hs
          obtain ⟨F, hF, hle⟩ := hs
          obtain ⟨hl, hget⟩ := List.forall₂_iff_get.mp henv
          obtain ⟨hj', rfl⟩ := List.getElem?_eq_some_iff.mp hF
          simp only at hq
          cases hc : env[i]? with
          | none => rw [hc] at hq; cases hq
          | some c =>
            obtain ⟨hj, rfl⟩ := List.getElem?_eq_some_iff.mp hc
            have hok := hget i hj hj' n (by omega) q
            rw [hc] at hq
            refine hle q (hok ?_)
            simp only [List.get_eq_getElem]
            cases hce : env[i] with
            | lam env' body => rw [hce] at hq; exact hq
            | fn g =>
              rw [hce] at hq
              simp only [Clo.run]
              simp only at hq
              cases hd : P[g]? with
              | none => rw [hd] at hq; cases hq
              | some d => rw [hd] at hq; exact hq
        | callFn f args =>
          simp only [StmtOK] at hs
          obtain ⟨s, hs, θ, hargs, hle⟩ := hs
          simp only at hq
          cases hcs : args.mapM (Arg.close env) with
          | none => rw [hcs] at hq; cases hq
          | some cs =>
            cases hd : P[f]? with
            | none => rw [hcs, hd] at hq; cases hq
            | some d =>
              rw [hcs, hd] at hq
              obtain ⟨s', hs', hb⟩ := hP f d hd
              rw [hs] at hs'; cases hs'
              refine hle q (ih n (by omega) cs _ d.body _ ?_ (hb θ) q hq)
              exact close_ok hP (fun m hm => ih m hm) henv' args _ cs hargs hcs

/-! ## Monotonicity -/

mutual

theorem StmtOK.mono {S S' : List Scheme} (hS : ∀ (i : Nat) (s : Scheme), S[i]? = some s → S'[i]? = some s) {Φ : List (Prim → Prop)} :
    ∀ (s : Stmt) {ε ε' : Prim → Prop}, (∀ p, ε p → ε' p) → StmtOK S Φ s ε → StmtOK S' Φ s ε'
  | .native e, _, _, h, k => by
    simp only [StmtOK] at k ⊢; exact fun p hp => h p (k p hp)
  | .callParam i, _, _, h, k => by
    simp only [StmtOK] at k ⊢
    obtain ⟨F, hF, hle⟩ := k
    exact ⟨F, hF, fun p hp => h p (hle p hp)⟩
  | .callFn f args, _, _, h, k => by
    simp only [StmtOK] at k ⊢
    obtain ⟨s, hs, θ, ha, hle⟩ := k
    exact ⟨s, hS f s hs, θ, ArgsOK.mono hS args (List.forall₂_same.mpr fun F _ p hp => hp) ha, fun p hp => h p (hle p hp)⟩

theorem ArgsOK.mono {S S' : List Scheme} (hS : ∀ (i : Nat) (s : Scheme), S[i]? = some s → S'[i]? = some s) {Φ : List (Prim → Prop)} :
    ∀ (as : List Arg) {Fs Gs : List (Prim → Prop)}, List.Forall₂ (fun F G => ∀ p, F p → G p) Fs Gs →
      ArgsOK S Φ as Fs → ArgsOK S' Φ as Gs
  | [], _, _, h, k => by
    simp only [ArgsOK] at k ⊢; subst k; cases h; rfl
  | a :: as, _, _, h, k => by
    simp only [ArgsOK] at k ⊢
    obtain ⟨F, Fs, rfl, ha, has⟩ := k
    cases h with
    | cons h1 h2 => exact ⟨_, _, rfl, ArgOK.mono hS a h1 ha, ArgsOK.mono hS as h2 has⟩

theorem ArgOK.mono {S S' : List Scheme} (hS : ∀ (i : Nat) (s : Scheme), S[i]? = some s → S'[i]? = some s) {Φ : List (Prim → Prop)} :
    ∀ (a : Arg) {F G : Prim → Prop}, (∀ p, F p → G p) → ArgOK S Φ a F → ArgOK S' Φ a G
  | .param j, _, _, h, k => by
    simp only [ArgOK] at k ⊢
    obtain ⟨F, hF, hle⟩ := k
    exact ⟨F, hF, fun p hp => h p (hle p hp)⟩
  | .lam body, _, _, h, k => by
    simp only [ArgOK] at k ⊢
    exact StmtsOK.mono hS body h k
  | .fn g, _, _, h, k => by
    simp only [ArgOK] at k ⊢
    obtain ⟨s, hs, hp, θ, hle⟩ := k
    exact ⟨s, hS g s hs, hp, θ, fun p hp => h p (hle p hp)⟩

theorem StmtsOK.mono {S S' : List Scheme} (hS : ∀ (i : Nat) (s : Scheme), S[i]? = some s → S'[i]? = some s) {Φ : List (Prim → Prop)} :
    ∀ (ss : List Stmt) {ε ε' : Prim → Prop}, (∀ p, ε p → ε' p) → StmtsOK S Φ ss ε → StmtsOK S' Φ ss ε'
  | [], _, _, _, _ => by simp only [StmtsOK]
  | s :: ss, _, _, h, k => by
    simp only [StmtsOK] at k ⊢
    exact ⟨StmtOK.mono hS s h k.1, StmtsOK.mono hS ss h k.2⟩

end

mutual

/-- Fewer effects of the callbacks in scope. -/
theorem StmtOK.env {S : List Scheme} {Φ Ψ : List (Prim → Prop)} (h : List.Forall₂ (fun F G => ∀ p, G p → F p) Φ Ψ) :
    ∀ (s : Stmt) {ε : Prim → Prop}, StmtOK S Φ s ε → StmtOK S Ψ s ε
  | .native e, _, k => by simp only [StmtOK] at k ⊢; exact k
  | .callParam i, _, k => by
    simp only [StmtOK] at k ⊢
    obtain ⟨F, hF, hle⟩ := k
    obtain ⟨hl, hget⟩ := List.forall₂_iff_get.mp h
    obtain ⟨hi, rfl⟩ := List.getElem?_eq_some_iff.mp hF
    exact ⟨Ψ[i]'(hl ▸ hi), by simp, fun p hp => hle p (hget i hi (hl ▸ hi) p hp)⟩
  | .callFn f args, _, k => by
    simp only [StmtOK] at k ⊢
    obtain ⟨s, hs, θ, ha, hle⟩ := k
    exact ⟨s, hs, θ, ArgsOK.env h args ha, hle⟩

theorem ArgsOK.env {S : List Scheme} {Φ Ψ : List (Prim → Prop)} (h : List.Forall₂ (fun F G => ∀ p, G p → F p) Φ Ψ) :
    ∀ (as : List Arg) {Fs : List (Prim → Prop)}, ArgsOK S Φ as Fs → ArgsOK S Ψ as Fs
  | [], _, k => by simp only [ArgsOK] at k ⊢; exact k
  | a :: as, _, k => by
    simp only [ArgsOK] at k ⊢
    obtain ⟨F, Fs, rfl, ha, has⟩ := k
    exact ⟨F, Fs, rfl, ArgOK.env h a ha, ArgsOK.env h as has⟩

theorem ArgOK.env {S : List Scheme} {Φ Ψ : List (Prim → Prop)} (h : List.Forall₂ (fun F G => ∀ p, G p → F p) Φ Ψ) :
    ∀ (a : Arg) {F : Prim → Prop}, ArgOK S Φ a F → ArgOK S Ψ a F
  | .param i, _, k => by
    simp only [ArgOK] at k ⊢
    obtain ⟨F, hF, hle⟩ := k
    obtain ⟨hl, hget⟩ := List.forall₂_iff_get.mp h
    obtain ⟨hi, rfl⟩ := List.getElem?_eq_some_iff.mp hF
    exact ⟨Ψ[i]'(hl ▸ hi), by simp, fun p hp => hle p (hget i hi (hl ▸ hi) p hp)⟩
  | .lam body, _, k => by
    simp only [ArgOK] at k ⊢
    exact StmtsOK.env h body k
  | .fn g, _, k => by simp only [ArgOK] at k ⊢; exact k

theorem StmtsOK.env {S : List Scheme} {Φ Ψ : List (Prim → Prop)} (h : List.Forall₂ (fun F G => ∀ p, G p → F p) Φ Ψ) :
    ∀ (ss : List Stmt) {ε : Prim → Prop}, StmtsOK S Φ ss ε → StmtsOK S Ψ ss ε
  | [], _, _ => by simp only [StmtsOK]
  | s :: ss, _, k => by
    simp only [StmtsOK] at k ⊢
    exact ⟨StmtOK.env h s k.1, StmtsOK.env h ss k.2⟩

end

end Ferlium.EffInfer
