import Verif.Proofs.UnifyEval
import Verif.Model.TypeInfer

/-!
Inference with a number of steps, to compute concrete cases, and strict inference as a part of inference.
-/
namespace Ferlium.TypeInfer

open Unify (Ty Args Head Table)

/-- `finish` in at most so many steps. -/
def finishIn (k : Nat) (tab : Table) (base : Nat) : List (Bool × Sig × Fn) → Option (List Sig)
  | [] => some []
  | (never, s, f) :: rest =>
    s.args.mapM (Unify.normalizeIn tab k) >>= fun args => Unify.normalizeIn tab k s.ret >>= fun ret =>
      finishIn k tab base rest >>= fun rest =>
        some (generalise args (defaulted (never || refersTo base f.body) args ret) :: rest)

/-- `solved` in at most so many steps. -/
def solvedIn (pick : Nat → Nat → Bool) (k n : Nat) (eqs : List (Ty × Ty)) : Option Table :=
  match Unify.solveIn pick k (Unify.fresh n) eqs with
  | some (.ok tab) => some tab
  | _ => none

/-- `inferGroup` in at most so many steps. -/
def inferGroupIn (pick : Nat → Nat → Bool) (k : Nat) (strict : Bool) (sigs : List Sig) (group : List Fn) : Option (List Sig) :=
  bodies ⟨strict, sigs ++ (headers 0 group).1⟩ (headers 0 group).2 ((headers 0 group).1.zip group) >>= fun b =>
    solvedIn pick k b.2.1 b.2.2 >>= fun tab =>
      finishIn k tab sigs.length (b.1.zip ((headers 0 group).1.zip group)) >>= fun new => some (sigs ++ new)

/-- `inferGroups` in at most so many steps. -/
def inferGroupsIn (pick : Nat → Nat → Bool) (k : Nat) (strict : Bool) (sigs : List Sig) : List (List Fn) → Option (List Sig)
  | [] => some sigs
  | group :: rest => inferGroupIn pick k strict sigs group >>= fun sigs => inferGroupsIn pick k strict sigs rest

theorem mapM_imp {f g : α → Option β} (h : ∀ a b, f a = some b → g a = some b) : ∀ {l : List α} {r : List β}, l.mapM f = some r → l.mapM g = some r
  | [], _, hr => hr
  | a :: l, r, hr => by
    simp only [List.mapM_cons, Option.bind_eq_bind, Option.bind_eq_some_iff, Option.pure_def] at hr ⊢
    obtain ⟨b, hb, r', hr', hr⟩ := hr
    exact ⟨b, h _ _ hb, r', mapM_imp h hr', hr⟩

theorem finishIn_eq {k : Nat} {tab : Table} {base : Nat} : ∀ {l : List (Bool × Sig × Fn)} {r : List Sig}, finishIn k tab base l = some r →
    finish tab base l = some r
  | [], _, h => h
  | (b, s, f) :: rest, r, h => by
    simp only [finishIn, finish, Option.bind_eq_bind, Option.bind_eq_some_iff] at h ⊢
    obtain ⟨args, h1, ret, h2, r', h3, h⟩ := h
    exact ⟨args, mapM_imp (Unify.normalizeIn_eq tab k).1 h1, ret, (Unify.normalizeIn_eq tab k).1 _ _ h2, r', finishIn_eq h3, h⟩

theorem inferGroupIn_eq {pick : Nat → Nat → Bool} {k : Nat} {strict : Bool} {sigs : List Sig} {group : List Fn} {r : List Sig}
    (h : inferGroupIn pick k strict sigs group = some r) : inferGroup pick strict sigs group = some r := by
  simp only [inferGroupIn, inferGroup, Option.bind_eq_bind, Option.bind_eq_some_iff] at h ⊢
  obtain ⟨b, h1, tab, h2, new, h3, h⟩ := h
  refine ⟨b, h1, tab, ?_, new, finishIn_eq h3, h⟩
  unfold solvedIn at h2
  unfold solved
  split at h2
  · next tab' hs => rw [Unify.solveIn_eq hs]; exact h2
  · cases h2

theorem inferGroupsIn_eq {pick : Nat → Nat → Bool} {k : Nat} {strict : Bool} : ∀ {groups : List (List Fn)} {sigs r : List Sig},
    inferGroupsIn pick k strict sigs groups = some r → inferGroups pick strict sigs groups = some r
  | [], _, _, h => h
  | g :: rest, sigs, r, h => by
    simp only [inferGroupsIn, inferGroups, Option.bind_eq_bind, Option.bind_eq_some_iff] at h ⊢
    obtain ⟨s, h1, h2⟩ := h
    exact ⟨s, inferGroupIn_eq h1, inferGroupsIn_eq h2⟩

/-! ## Strict inference -/

mutual

theorem infer_lax {sigs : List Sig} : ∀ {Γ : Locals} (e : Expr) {ret : Ty} {expected : Option Ty} {n : Nat} {o : Out},
    infer ⟨true, sigs⟩ ret Γ expected n e = some o → infer ⟨false, sigs⟩ ret Γ expected n e = some o
  | Γ, .lit _ _, _, _, _, _, h => by simpa only [infer] using h
  | Γ, .local _, _, _, _, _, h => by simpa only [infer] using h
  | Γ, .fn f, _, _, _, _, h => by
    simp only [infer, Option.bind_eq_bind, Option.bind_eq_some_iff] at h ⊢
    obtain ⟨s, hs, h⟩ := h
    refine ⟨s, hs, ?_⟩
    split at h
    · exact h
    · cases h
  | Γ, .abs params body, ret, expected, n, o, h => by
    rw [infer] at h ⊢
    have hr : refused ⟨false, sigs⟩ (expectedFn expected) params = false := by
      unfold refused
      split
      · rfl
      · rfl
    rw [hr]
    split at h
    · cases h
    · simp only [Option.bind_eq_bind, Option.bind_eq_some_iff] at h
      obtain ⟨o', h1, h⟩ := h
      rw [if_neg (by simp), infer_lax body h1]
      exact h
  | Γ, .app callee args, ret, expected, n, o, h => by
    simp only [infer, Option.bind_eq_bind, Option.bind_eq_some_iff] at h ⊢
    obtain ⟨f, hf, h⟩ := h
    refine ⟨f, infer_lax callee hf, ?_⟩
    split
    · next hn => rw [if_pos hn] at h; exact h
    · next hn =>
      rw [if_neg hn] at h
      simp only [Option.bind_eq_some_iff] at h ⊢
      obtain ⟨a, ha, h⟩ := h
      exact ⟨a, inferAll_lax args ha, h⟩
  | Γ, .call f args, ret, expected, n, o, h => by
    simp only [infer, Option.bind_eq_bind, Option.bind_eq_some_iff] at h ⊢
    obtain ⟨s, hs, h⟩ := h
    refine ⟨s, hs, ?_⟩
    split
    · next hn => rw [if_pos hn] at h; cases h
    · next hn =>
      rw [if_neg hn] at h
      split at h
      · cases h
      · rw [if_neg (by simp [Ctx.callable])]
        simp only [Option.bind_eq_some_iff] at h ⊢
        obtain ⟨a, ha, h⟩ := h
        exact ⟨a, inferAll_lax args ha, h⟩
  | Γ, .block body, _, _, _, _, h => by
    simp only [infer, Option.map_eq_some_iff] at h ⊢
    obtain ⟨a, ha, h⟩ := h
    exact ⟨a, inferStmts_lax body ha, h⟩
  | Γ, .assign x value, _, _, _, _, h => by
    simp only [infer, Option.bind_eq_bind, Option.bind_eq_some_iff] at h ⊢
    obtain ⟨l, hl, h⟩ := h
    refine ⟨l, hl, ?_⟩
    split
    · next hn => rw [if_pos hn] at h; cases h
    · next hn =>
      rw [if_neg hn] at h
      simp only [Option.bind_eq_some_iff] at h ⊢
      obtain ⟨a, ha, h⟩ := h
      exact ⟨a, infer_lax value ha, h⟩
  | Γ, .tuple items, _, _, _, _, h => by
    simp only [infer, Option.bind_eq_bind, Option.bind_eq_some_iff] at h ⊢
    obtain ⟨a, ha, h⟩ := h
    exact ⟨a, inferAll_lax items ha, h⟩
  | Γ, .ite cond yes no, _, _, _, _, h => by
    simp only [infer, Option.bind_eq_bind, Option.bind_eq_some_iff] at h ⊢
    obtain ⟨b, hb, h⟩ := h
    refine ⟨b, infer_lax cond hb, ?_⟩
    split
    · next hn => rw [if_pos hn] at h; exact h
    · next hn =>
      rw [if_neg hn] at h
      simp only [Option.bind_eq_some_iff] at h ⊢
      obtain ⟨e, he, t, ht, h⟩ := h
      exact ⟨e, infer_lax no he, t, infer_lax yes ht, h⟩
  | Γ, .ret value, _, _, _, _, h => by
    simp only [infer, Option.bind_eq_bind, Option.bind_eq_some_iff] at h ⊢
    obtain ⟨a, ha, h⟩ := h
    exact ⟨a, infer_lax value ha, h⟩

theorem inferAll_lax {sigs : List Sig} : ∀ {Γ : Locals} (e : Exprs) {ret : Ty} {expected : Option (List Ty)} {n : Nat} {o : Outs},
    inferAll ⟨true, sigs⟩ ret Γ expected n e = some o → inferAll ⟨false, sigs⟩ ret Γ expected n e = some o
  | Γ, .nil, _, _, _, _, h => by simpa only [inferAll] using h
  | Γ, .cons e rest, _, _, _, _, h => by
    simp only [inferAll, Option.bind_eq_bind, Option.bind_eq_some_iff] at h ⊢
    obtain ⟨b, hb, h⟩ := h
    refine ⟨b, infer_lax e hb, ?_⟩
    split
    · next hn => rw [if_pos hn] at h; exact h
    · next hn =>
      rw [if_neg hn] at h
      simp only [Option.bind_eq_some_iff] at h ⊢
      obtain ⟨a, ha, h⟩ := h
      exact ⟨a, inferAll_lax rest ha, h⟩

theorem inferStmts_lax {sigs : List Sig} : ∀ {Γ : Locals} (e : Stmts) {ret last : Ty} {n : Nat} {o : Out},
    inferStmts ⟨true, sigs⟩ ret Γ last n e = some o → inferStmts ⟨false, sigs⟩ ret Γ last n e = some o
  | Γ, .nil, _, _, _, _, h => by simpa only [inferStmts] using h
  | Γ, .bind x m e rest, _, _, _, _, h => by
    simp only [inferStmts, Option.bind_eq_bind, Option.bind_eq_some_iff] at h ⊢
    obtain ⟨b, hb, h⟩ := h
    refine ⟨b, infer_lax e hb, ?_⟩
    split
    · next hn => rw [if_pos hn] at h; exact h
    · next hn =>
      rw [if_neg hn] at h
      simp only [Option.bind_eq_some_iff] at h ⊢
      obtain ⟨a, ha, h⟩ := h
      exact ⟨a, inferStmts_lax rest ha, h⟩
  | Γ, .expr e rest, _, _, _, _, h => by
    simp only [inferStmts, Option.bind_eq_bind, Option.bind_eq_some_iff] at h ⊢
    obtain ⟨b, hb, h⟩ := h
    refine ⟨b, infer_lax e hb, ?_⟩
    split
    · next hn => rw [if_pos hn] at h; exact h
    · next hn =>
      rw [if_neg hn] at h
      simp only [Option.bind_eq_some_iff] at h ⊢
      obtain ⟨a, ha, h⟩ := h
      exact ⟨a, inferStmts_lax rest ha, h⟩

end

theorem bodies_lax {sigs : List Sig} : ∀ {l : List (Sig × Fn)} {n : Nat} {r : List Bool × Nat × List (Ty × Ty)},
    bodies ⟨true, sigs⟩ n l = some r → bodies ⟨false, sigs⟩ n l = some r
  | [], _, _, h => h
  | (s, f) :: rest, n, r, h => by
    simp only [bodies, Option.bind_eq_bind, Option.bind_eq_some_iff] at h ⊢
    obtain ⟨b, hb, q, hq, h⟩ := h
    exact ⟨b, infer_lax _ hb, q, bodies_lax hq, h⟩

theorem inferGroups_lax {pick : Nat → Nat → Bool} : ∀ {groups : List (List Fn)} {sigs r : List Sig},
    inferGroups pick true sigs groups = some r → inferGroups pick false sigs groups = some r
  | [], _, _, h => h
  | g :: rest, sigs, r, h => by
    simp only [inferGroups, inferGroup, Option.bind_eq_bind, Option.bind_eq_some_iff] at h ⊢
    obtain ⟨s, ⟨b, h1, h3⟩, h2⟩ := h
    exact ⟨s, ⟨b, bodies_lax h1, h3⟩, inferGroups_lax h2⟩

end Ferlium.TypeInfer
