import Verif.Proofs.TypeComplete

/-!
What inference accepts follows the typing rules without inference.
-/
namespace Ferlium.TypeInfer

open Unify (Ty Args Head Table)

/-- What the rules say of an inferred type. -/
def kind (θ : Nat → Ty) (t : Ty) : Option Ty := if t = .never then none else some (t.subst θ)

/-- The functions can be used at the instances of their types. -/
def KAll (c : Ctx) (K : Uses) (θ : Nat → Ty) : Prop := ∀ (f : Nat) (s : Sig), c.sigs[f]? = some s → ∀ σ : Nat → Ty, (∀ v, v ∉ s.vars → σ v = θ v) →
  K f (s.args.map (·.subst σ)) (kind σ s.ret)

variable {c : Ctx} {K : Uses} {θ : Nat → Ty} {ρ : Ty} {Γ : Locals} {n : Nat}

theorem kind_never {t : Ty} (h : t = .never) : kind θ t = none := if_pos h

theorem kind_real {t : Ty} (h : t ≠ .never) : kind θ t = some (t.subst θ) := if_neg h

theorem kind_fits {t τ : Ty} (h : t = .never ∨ t.subst θ = τ) : Fits (kind θ t) τ := by
  intro σ hσ
  unfold kind at hσ
  split at hσ
  · cases hσ
  · next hn => cases hσ; exact h.resolve_left hn

theorem sat_of_expect {exp : Option Ty} {o : Out} (h : Sat θ (expect exp o).eqs) : Sat θ o.eqs := by
  cases exp with
  | none => exact h
  | some t => exact Sat.left h

theorem expect_ty (exp : Option Ty) (o : Out) : (expect exp o).ty = o.ty := by cases exp <;> rfl

theorem KAll.inst (hK : KAll c K θ) {f : Nat} {s : Sig} (hs : c.sigs[f]? = some s) (n : Nat) :
    K f ((s.args.map (·.subst (s.fresh n))).map (·.subst θ)) (kind θ (s.ret.subst (s.fresh n))) := by
  have h := hK f s hs (fun v => (s.fresh n v).subst θ) (fun v hv => by unfold Sig.fresh; rw [if_neg hv, Unify.Ty.subst])
  have e1 : (s.args.map (·.subst (s.fresh n))).map (·.subst θ) = s.args.map (·.subst fun v => (s.fresh n v).subst θ) := by
    rw [List.map_map]
    exact List.map_congr_left fun t _ => Unify.Ty.subst_subst t
  have e2 : kind θ (s.ret.subst (s.fresh n)) = kind (fun v => (s.fresh n v).subst θ) s.ret := by
    unfold kind
    by_cases hn : s.ret = .never
    · rw [if_pos hn, hn, Unify.Ty.subst, if_pos rfl]
    · rw [if_neg hn, if_neg (subst_ne_never hn), Unify.Ty.subst_subst]
  rw [e1, e2]
  exact h

mutual

theorem infer_rules (hK : KAll c K θ) : ∀ (e : Expr) {ρ : Ty} {Γ : Locals} {exp : Option Ty} {n : Nat} {o : Out}, Pre c ρ Γ n →
    (∀ t, exp = some t → OkTy n t) → infer c ρ Γ exp n e = some o → Sat θ o.eqs → Rule K (ρ.subst θ) (sub θ Γ) e (kind θ o.ty)
  | .lit k _, ρ, Γ, exp, n, o, hp, ht, h, hsat => by
    simp only [infer, Option.some.injEq] at h
    subst h
    rw [expect_ty, kind_real (by simp [native]), native_subst]
    exact .lit
  | .local x, ρ, Γ, exp, n, o, hp, ht, h, hsat => by
    simp only [infer, Option.map_eq_some_iff] at h
    obtain ⟨l, hl, rfl⟩ := h
    obtain ⟨b, hb, hbl⟩ := find_mem hl
    have hok : OkTy n l.2 := by rw [← hbl]; exact hp.locals b hb
    rw [expect_ty, kind_real hok.ne_never]
    rw [find_eq] at hl
    exact .local (m := l.1) (lookup_sub hl)
  | .fn f, ρ, Γ, exp, n, o, hp, ht, h, hsat => by
    simp only [infer, Option.bind_eq_bind, Option.bind_eq_some_iff] at h
    obtain ⟨s, hs, h⟩ := h
    split at h
    · next hv =>
      obtain rfl := (Option.some.inj h)
      simp only [Ctx.value, hp.strict, Bool.not_true, Bool.false_or, Bool.not_eq_true', Bool.or_eq_false_iff, List.any_eq_false] at hv
      have hn : s.ret ≠ .never := fun hc => by rw [hc] at hv; simp [mentionsNever] at hv
      rw [expect_ty, kind_real (by simp [fnTy]), fnTy_subst]
      have := hK.inst hs n
      rw [kind_real (subst_ne_never hn)] at this
      exact .fn this
    · cases h
  | .abs params body, ρ, Γ, exp, n, o, hp, ht, h, hsat => by
    simp only [infer] at h
    split at h
    · cases h
    · next hr =>
      simp only [Option.bind_eq_bind, Option.bind_eq_some_iff] at h
      obtain ⟨ob, hb, h⟩ := h
      obtain rfl := (Option.some.inj h)
      obtain ⟨k1, k2, k3, k4⟩ := closureTys_ok hp.strict ht hr
      generalize closureTys (expectedFn exp) params n = q at hb k1 k2 k3 k4 hsat
      have hs := sat_of_expect hsat
      have ih := infer_rules hK body ⟨hp.strict, (hp.mono k1).sigs, k3, enter_ok k2 (captured_ok (hp.mono k1).locals)⟩
        (fun t ht => by cases ht; exact k3) hb hs
      rw [expect_ty, kind_real (by simp [fnTy]), fnTy_subst]
      refine .abs (by rw [List.length_map, k4]) ?_ (kind_fits (infer_checked hb hs))
      rw [enter_eq, captured_eq] at ih
      rw [without_sub, bindParams_sub]
      exact ih
  | .app callee args, ρ, Γ, exp, n, o, hp, ht, h, hsat => by
    simp only [infer, Option.bind_eq_bind, Option.bind_eq_some_iff] at h
    obtain ⟨f, hf, h⟩ := h
    have gf := infer_good callee hp (by simp) hf
    split at h
    · next hn =>
      obtain rfl := (Option.some.inj h)
      have rf := infer_rules hK callee hp (by simp) hf (sat_of_expect hsat)
      rw [kind_never hn] at rf
      rw [expect_ty, kind_never hn]
      exact .appCallee rf
    · next hn =>
      simp only [Option.bind_eq_some_iff] at h
      obtain ⟨a, ha, h⟩ := h
      split at h
      · next hd =>
        obtain rfl := (Option.some.inj h)
        have hs := sat_of_expect hsat
        have rf := infer_rules hK callee hp (by simp) hf hs.left
        have ra := (inferAll_rules hK args (hp.mono gf.le) (by simp) ha hs.right).1
        rw [kind_real hn] at rf
        rw [hd] at ra
        rw [expect_ty, kind_never rfl]
        exact .appArgs rf ra
      · next hd =>
        obtain rfl := (Option.some.inj h)
        have hs := sat_of_expect hsat
        have rf := infer_rules hK callee hp (by simp) hf hs.left.left
        have ra := (inferAll_rules hK args (hp.mono gf.le) (by simp) ha hs.left.right).1
        have h1 := hs.right.equate.resolve_left hn
        rw [fnTy_subst] at h1
        rw [kind_real hn, h1] at rf
        rw [show a.diverges = false by simpa using hd] at ra
        rw [expect_ty, kind_real (by simp)]
        exact .app rf ra
  | .call f args, ρ, Γ, exp, n, o, hp, ht, h, hsat => by
    simp only [infer, Option.bind_eq_bind, Option.bind_eq_some_iff] at h
    obtain ⟨s, hs, h⟩ := h
    split at h
    · cases h
    · next hlen =>
      split at h
      · cases h
      · next hcall =>
        simp only [Option.bind_eq_some_iff] at h
        obtain ⟨a, ha, h⟩ := h
        have hsig := hp.sigs f s hs
        simp only [Ctx.callable, hp.strict, Bool.not_true, Bool.false_or, Bool.not_not, Bool.not_eq_true, Bool.or_eq_false_iff,
          List.any_eq_false, Bool.and_eq_false_iff, bne_eq_false_iff_eq] at hcall
        obtain ⟨hv1, hv2⟩ := hcall
        have hargs : ∀ t ∈ s.args.map (·.subst (s.fresh n)), OkTy (n + s.vars.length) t := by
          intro t ht
          obtain ⟨t', ht', rfl⟩ := List.mem_map.1 ht
          exact okTy_inst hsig (.inl ht') ((mentionsNever_iff _).1 (by simpa using hv2 t' ht'))
        have hlen' : s.args.length = args.length := by simpa using hlen
        have hl : (s.args.map (·.subst (s.fresh n))).length = args.length := by rw [List.length_map]; exact hlen'
        have hsa : Sat θ a.eqs := by
          split at h
          · obtain rfl := (Option.some.inj h); exact sat_of_expect hsat
          · obtain rfl := (Option.some.inj h); exact sat_of_expect hsat
        have ra := (inferAll_rules hK args (hp.mono (Nat.le_add_right _ _)) (fun ts h => by cases h; exact hargs) ha hsa).2 _ rfl hl
        have hk := hK.inst hs n
        split at h
        · next hd =>
          obtain rfl := (Option.some.inj h)
          rw [hd] at ra
          rw [expect_ty, kind_never rfl]
          exact .callArgs hk (by rw [List.length_map, hl]) ra
        · next hd =>
          obtain rfl := (Option.some.inj h)
          rw [show a.diverges = false by simpa using hd] at ra
          rw [expect_ty]
          exact .call hk ra
  | .block body, ρ, Γ, exp, n, o, hp, ht, h, hsat => by
    simp only [infer, Option.map_eq_some_iff] at h
    obtain ⟨r, hr, rfl⟩ := h
    have g := inferStmts_rules hK body hp okTy_unit hr (sat_of_expect hsat)
    rw [unit_subst] at g
    rw [expect_ty]
    exact .block g
  | .assign x value, ρ, Γ, exp, n, o, hp, ht, h, hsat => by
    simp only [infer, Option.bind_eq_bind, Option.bind_eq_some_iff] at h
    obtain ⟨l, hl, h⟩ := h
    split at h
    · cases h
    · next hm =>
      simp only [Option.bind_eq_some_iff] at h
      obtain ⟨v, hv, h⟩ := h
      obtain rfl := (Option.some.inj h)
      have hs := sat_of_expect hsat
      have g := infer_rules hK value hp (by simp) hv hs.left
      rw [find_eq] at hl
      have hl' : lookup x Γ = some (true, l.2) := by
        rw [hl]
        have : l.1 = true := by simpa using hm
        rw [← this]
      rw [expect_ty]
      by_cases hn : v.ty = .never
      · rw [kind_never hn] at g
        dsimp only
        rw [if_pos hn, kind_never rfl]
        exact .assignValue (lookup_sub hl') g
      · rw [kind_real hn, hs.right.equate.resolve_left hn] at g
        dsimp only
        rw [if_neg hn, kind_real (by simp [unit, tupleTy]), unit_subst]
        exact .assign (lookup_sub hl') g
  | .tuple items, ρ, Γ, exp, n, o, hp, ht, h, hsat => by
    simp only [infer, Option.bind_eq_bind, Option.bind_eq_some_iff] at h
    obtain ⟨a, ha, h⟩ := h
    obtain rfl := (Option.some.inj h)
    have ra := (inferAll_rules hK items hp (by simp) ha (sat_of_expect hsat)).1
    rw [expect_ty]
    dsimp only
    cases hd : a.diverges with
    | true =>
      rw [hd] at ra
      rw [if_pos rfl, kind_never rfl]
      exact .tupleItems ra
    | false =>
      rw [hd] at ra
      rw [if_neg (by simp), kind_real (by simp [tupleTy]), tupleTy_subst]
      exact .tuple ra
  | .ite cond yes no, ρ, Γ, exp, n, o, hp, ht, h, hsat => by
    simp only [infer, Option.bind_eq_bind, Option.bind_eq_some_iff] at h
    obtain ⟨b, hb, h⟩ := h
    have gb := infer_good cond hp (by simp) hb
    split at h
    · next hn =>
      obtain rfl := (Option.some.inj h)
      have rb := infer_rules hK cond hp (by simp) hb (sat_of_expect hsat)
      rw [kind_never hn] at rb
      rw [expect_ty, kind_never hn]
      exact .iteCond rb
    · next hn =>
      simp only [Option.bind_eq_some_iff] at h
      obtain ⟨el, hel, th, hth, h⟩ := h
      obtain rfl := (Option.some.inj h)
      have ge := infer_good no (hp.mono (le_trans gb.le (Nat.le_succ _))) (fun t h => by cases h; exact .var (Nat.lt_succ_self _)) hel
      have hle : b.next + 1 ≤ el.next := ge.le
      have hs := sat_of_expect hsat
      have rb := infer_rules hK cond hp (by simp) hb hs.left.left.left.left.left
      have re := infer_rules hK no (hp.mono (le_trans gb.le (Nat.le_succ _))) (fun t h => by cases h; exact .var (Nat.lt_succ_self _)) hel
        hs.left.left.left.left.right
      have rt := infer_rules hK yes (hp.mono (le_trans gb.le (le_trans (Nat.le_succ _) ge.le))) (fun t h => by cases h; exact .var (by omega)) hth
        hs.left.right
      have hbool : b.ty.subst θ = bool := by
        have := hs.left.left.right.equate.resolve_left (by simp [bool, native])
        rw [bool_subst] at this
        exact this.symm
      rw [kind_real hn, hbool] at rb
      have fe := kind_fits hs.left.left.left.right.equate
      have ft := kind_fits hs.right.equate
      rw [expect_ty]
      dsimp only
      by_cases hboth : th.ty = .never ∧ el.ty = .never
      · rw [if_pos hboth, kind_never rfl]
        rw [kind_never hboth.1] at rt
        rw [kind_never hboth.2] at re
        exact .iteBranches rb rt re
      · rw [if_neg hboth, kind_real (by simp)]
        refine .ite rb rt re ft fe fun hc => hboth ⟨?_, ?_⟩
        · by_contra hx; rw [kind_real hx] at hc; cases hc.1
        · by_contra hx; rw [kind_real hx] at hc; cases hc.2
  | .ret value, ρ, Γ, exp, n, o, hp, ht, h, hsat => by
    simp only [infer, Option.bind_eq_bind, Option.bind_eq_some_iff] at h
    obtain ⟨v, hv, h⟩ := h
    obtain rfl := (Option.some.inj h)
    have hs := sat_of_expect hsat
    rw [expect_ty, kind_never rfl]
    exact .ret (infer_rules hK value hp (by simp) hv hs.left) (kind_fits hs.right.equate)

theorem inferAll_rules (hK : KAll c K θ) : ∀ (es : Exprs) {ρ : Ty} {Γ : Locals} {exp : Option (List Ty)} {n : Nat} {o : Outs}, Pre c ρ Γ n →
    (∀ ts, exp = some ts → ∀ t ∈ ts, OkTy n t) → inferAll c ρ Γ exp n es = some o → Sat θ o.eqs →
    RuleAll K (ρ.subst θ) (sub θ Γ) es (o.tys.map (·.subst θ)) o.diverges ∧
    ∀ ts, exp = some ts → ts.length = es.length → RuleAll K (ρ.subst θ) (sub θ Γ) es (ts.map (·.subst θ)) o.diverges
  | .nil, ρ, Γ, exp, n, o, hp, ht, h, hsat => by
    simp only [inferAll, Option.some.injEq] at h
    subst h
    refine ⟨.nil, ?_⟩
    intro ts _ hl
    rw [Exprs.length, List.length_eq_zero_iff] at hl
    rw [hl]
    exact .nil
  | .cons e rest, ρ, Γ, exp, n, o, hp, ht, h, hsat => by
    simp only [inferAll, Option.bind_eq_bind, Option.bind_eq_some_iff] at h
    obtain ⟨v, hv, h⟩ := h
    have hte : ∀ t, (exp.bind List.head?) = some t → OkTy n t := fun t h => by
      cases exp with
      | none => cases h
      | some ts =>
        cases ts with
        | nil => cases h
        | cons t' ts => cases h; exact ht _ rfl _ (by simp)
    have g := infer_good e hp hte hv
    split at h
    · next hn =>
      obtain rfl := (Option.some.inj h)
      have re := infer_rules hK e hp hte hv hsat
      rw [kind_never hn] at re
      exact ⟨.stop re, fun ts _ _ => .stop re⟩
    · next hn =>
      simp only [Option.bind_eq_some_iff] at h
      obtain ⟨r, hr, h⟩ := h
      obtain rfl := (Option.some.inj h)
      have re := infer_rules hK e hp hte hv hsat.left
      rw [kind_real hn] at re
      obtain ⟨r1, r2⟩ := inferAll_rules hK rest (hp.mono g.le) (fun ts h t hts => by
        cases exp with
        | none => cases h
        | some ts' =>
          cases h
          exact (ht _ rfl _ (List.mem_of_mem_tail hts)).mono g.le) hr hsat.right
      refine ⟨.cons re r1, ?_⟩
      intro ts hts hl
      subst hts
      cases ts with
      | nil => simp [Exprs.length] at hl
      | cons t ts =>
        rw [List.map_cons, ← (infer_checked hv hsat.left).resolve_left hn]
        exact .cons re (r2 ts rfl (by simpa [Exprs.length] using hl))

theorem inferStmts_rules (hK : KAll c K θ) : ∀ (s : Stmts) {ρ : Ty} {Γ : Locals} {last : Ty} {n : Nat} {o : Out}, Pre c ρ Γ n →
    OkTy n last → inferStmts c ρ Γ last n s = some o → Sat θ o.eqs → RuleStmts K (ρ.subst θ) (sub θ Γ) (last.subst θ) s (kind θ o.ty)
  | .nil, ρ, Γ, last, n, o, hp, ht, h, hsat => by
    simp only [inferStmts, Option.some.injEq] at h
    subst h
    rw [kind_real ht.ne_never]
    exact .nil
  | .bind x m e rest, ρ, Γ, last, n, o, hp, ht, h, hsat => by
    simp only [inferStmts, Option.bind_eq_bind, Option.bind_eq_some_iff] at h
    obtain ⟨v, hv, h⟩ := h
    have g := infer_good e hp (by simp) hv
    split at h
    · next hn =>
      obtain rfl := (Option.some.inj h)
      have re := infer_rules hK e hp (by simp) hv hsat
      rw [kind_never hn] at re ⊢
      exact .bindValue re
    · next hn =>
      simp only [Option.bind_eq_some_iff] at h
      obtain ⟨r, hr, h⟩ := h
      obtain rfl := (Option.some.inj h)
      have hp' := hp.mono g.le
      have re := infer_rules hK e hp (by simp) hv hsat.left
      rw [kind_real hn] at re
      have rr := inferStmts_rules hK rest ⟨hp'.strict, hp'.sigs, hp'.ret, fun b hb => by
        rcases List.mem_cons.1 hb with rfl | hb
        · exact g.ty.resolve_left hn
        · exact hp'.locals b hb⟩ okTy_unit hr hsat.right
      rw [unit_subst] at rr
      exact .bind re rr
  | .expr e rest, ρ, Γ, last, n, o, hp, ht, h, hsat => by
    simp only [inferStmts, Option.bind_eq_bind, Option.bind_eq_some_iff] at h
    obtain ⟨v, hv, h⟩ := h
    have g := infer_good e hp (by simp) hv
    split at h
    · next hn =>
      obtain rfl := (Option.some.inj h)
      have re := infer_rules hK e hp (by simp) hv hsat
      rw [kind_never hn] at re ⊢
      exact .exprValue re
    · next hn =>
      simp only [Option.bind_eq_some_iff] at h
      obtain ⟨r, hr, h⟩ := h
      obtain rfl := (Option.some.inj h)
      have re := infer_rules hK e hp (by simp) hv hsat.left
      rw [kind_real hn] at re
      have rr := inferStmts_rules hK rest (hp.mono g.le) (g.ty.resolve_left hn) hr hsat.right
      exact .expr re rr

end

end Ferlium.TypeInfer
