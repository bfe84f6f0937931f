import Verif.Proofs.TypeInferGroup
import Verif.Model.TypeRules

/-!
Inference accepts what the typing rules allow.
-/
namespace Ferlium.TypeInfer

open Unify (Ty Args Head Table)

/-- The assignments agree on the first variables. -/
def Ext (n : Nat) (θ θ' : Nat → Ty) : Prop := ∀ v, v < n → θ' v = θ v

variable {c : Ctx} {K : Uses} {ρ : Ty} {Γ : Locals} {n m : Nat} {θ θ' : Nat → Ty} {o : Option Ty}

theorem Ext.refl : Ext n θ θ := fun _ _ => rfl

theorem Ext.trans {θ'' : Nat → Ty} (h : Ext n θ θ') (h' : Ext n θ' θ'') : Ext n θ θ'' := fun v hv => (h' v hv).trans (h v hv)

theorem Ext.mono (h : Ext n θ θ') (hm : m ≤ n) : Ext m θ θ' := fun v hv => h v (by omega)

theorem Ext.ty (h : Ext n θ θ') {t : Ty} (ht : OkTy n t) : t.subst θ' = t.subst θ :=
  Unify.Ty.subst_congr t fun v hv => h v (ht.below v hv)

theorem Ext.tys (h : Ext n θ θ') {ts : List Ty} (ht : ∀ t ∈ ts, OkTy n t) : ts.map (·.subst θ') = ts.map (·.subst θ) :=
  List.map_congr_left fun t h' => h.ty (ht t h')

theorem Ext.sub (h : Ext n θ θ') {Γ : Locals} (hΓ : ∀ b ∈ Γ, OkTy n b.2.2) : sub θ' Γ = sub θ Γ := by
  unfold TypeInfer.sub
  refine List.map_congr_left fun b hb => ?_
  rw [h.ty (hΓ b hb)]

theorem Ext.sat (h : Ext n θ θ') {eqs : List (Ty × Ty)} (he : ∀ q ∈ eqs, EqOk n q) (hs : Sat θ eqs) : Sat θ' eqs := by
  intro q hq
  obtain ⟨h1, h2⟩ := he q hq
  rcases hs q hq with k | k
  · exact .inl k
  · rcases h1 with h1 | h1
    · exact .inl h1
    · right
      rw [h.ty h1, h.ty h2, k]

/-- The inferred type is that of the rules. -/
def Shape (θ : Nat → Ty) (ty : Ty) (o : Option Ty) : Prop := (o = none ∧ ty = .never) ∨ (ty ≠ .never ∧ o = some (ty.subst θ))

theorem Shape.ext {ty : Ty} (h : Shape θ ty o) (he : Ext n θ θ') (ht : ty = .never ∨ OkTy n ty) : Shape θ' ty o := by
  rcases h with h | ⟨h1, h2⟩
  · exact .inl h
  · exact .inr ⟨h1, by rw [he.ty (ht.resolve_left h1)]; exact h2⟩

theorem Sat.append {a b : List (Ty × Ty)} (ha : Sat θ a) (hb : Sat θ b) : Sat θ (a ++ b) := by
  intro q hq
  rcases List.mem_append.1 hq with h | h
  · exact ha q h
  · exact hb q h

theorem sat_equate {a b : Ty} (h : a = .never ∨ a.subst θ = b.subst θ) : Sat θ (equate a b) := by
  intro q hq
  unfold equate at hq
  split at hq
  · cases hq
  · simp only [List.mem_singleton] at hq
    subst hq
    exact h

theorem Shape.fits {ty t : Ty} (h : Shape θ ty o) (hf : Fits o (t.subst θ)) : ty = .never ∨ ty.subst θ = t.subst θ := by
  rcases h with h | ⟨_, h⟩
  · exact .inl h.2
  · exact .inr (hf _ h)

/-- The uses of the functions are those of their types. -/
def KOk (c : Ctx) (K : Uses) (m : Nat) (θ : Nat → Ty) : Prop :=
  ∀ f args o, K f args o → ∃ s : Sig, c.sigs[f]? = some s ∧ s.Usable ∧ SigOk m s ∧ ∃ σ : Nat → Ty, (∀ v, v ∉ s.vars → v < m → σ v = θ v) ∧
    args = s.args.map (·.subst σ) ∧ (s.ret = .never ∧ o = none ∨ s.ret ≠ .never ∧ o = some (s.ret.subst σ))

theorem KOk.ext (h : KOk c K m θ) (he : Ext m θ θ') : KOk c K m θ' := by
  intro f args o hf
  obtain ⟨s, h1, h2, h3, σ, h4, h5⟩ := h f args o hf
  exact ⟨s, h1, h2, h3, σ, fun v hv hm => (h4 v hv hm).trans (he v hm).symm, h5⟩

/-- The assignment with values for new variables. -/
def extend (θ : Nat → Ty) (n : Nat) (vs : List Ty) : Nat → Ty := fun w => if n ≤ w then (vs[w - n]?).getD (θ w) else θ w

theorem extend_ext {vs : List Ty} : Ext n θ (extend θ n vs) := fun v hv => by simp [extend]; omega

theorem extend_at {vs : List Ty} {i : Nat} {t : Ty} (h : vs[i]? = some t) : extend θ n vs (n + i) = t := by
  simp [extend, h]

theorem extend_fresh {s : Sig} {σ : Nat → Ty} (hs : SigOk m s) (hm : m ≤ n) (hσ : ∀ v, v ∉ s.vars → v < m → σ v = θ v) {t : Ty}
    (ht : t ∈ s.args ∨ t = s.ret) : (t.subst (s.fresh n)).subst (extend θ n (s.vars.map σ)) = t.subst σ := by
  rw [Unify.Ty.subst_subst]
  refine Unify.Ty.subst_congr t fun v hv => ?_
  unfold Sig.fresh
  by_cases hmem : v ∈ s.vars
  · rw [if_pos hmem, Unify.Ty.subst]
    refine extend_at ?_
    rw [List.getElem?_map, List.getElem?_eq_getElem (List.idxOf_lt_length_of_mem hmem), List.getElem_idxOf]
    rfl
  · rw [if_neg hmem, Unify.Ty.subst]
    have hvm := ((hs t ht).2 v hv).resolve_left hmem
    rw [extend_ext v (by omega), hσ v hmem hvm]

theorem extend_vars {vs : List Ty} : (vars n vs.length).map (·.subst (extend θ n vs)) = vs := by
  apply List.ext_getElem?
  intro i
  by_cases hi : i < vs.length
  · rw [List.getElem?_map, List.getElem?_eq_getElem (by simpa [vars] using hi)]
    simp only [vars, List.getElem_map, List.getElem_range, Option.map_some, Unify.Ty.subst]
    rw [extend_at (List.getElem?_eq_getElem hi), List.getElem?_eq_getElem hi]
  · rw [List.getElem?_eq_none (by simp [vars]; omega), List.getElem?_eq_none (by omega)]

theorem lookup_sub_inv {x : Name} {b : Bool} {τ : Ty} : ∀ {Γ : Locals}, lookup x (sub θ Γ) = some (b, τ) →
    ∃ t, lookup x Γ = some (b, t) ∧ τ = t.subst θ
  | [], h => by simp [sub, lookup] at h
  | (y, b', t) :: rest, h => by
    simp only [sub, List.map_cons, lookup] at h ⊢
    split at h
    · next hy => cases h; rw [if_pos hy]; exact ⟨t, rfl, rfl⟩
    · next hy => rw [if_neg hy]; exact lookup_sub_inv h

/-- Inference succeeds as the rules say. -/
def Found (c : Ctx) (ρ : Ty) (Γ : Locals) (exp : Option Ty) (n : Nat) (θ : Nat → Ty) (e : Expr) (o : Option Ty) : Prop :=
  ∃ out θ', infer c ρ Γ exp n e = some out ∧ Ext n θ θ' ∧ Sat θ' out.eqs ∧ Shape θ' out.ty o

theorem sat_expect {out : Out} {exp : Option Ty} (hs : Sat θ' out.eqs) (hsh : Shape θ' out.ty o) (he : Ext n θ θ')
    (hexp : ∀ t, exp = some t → OkTy n t ∧ Fits o (t.subst θ)) :
    Sat θ' (expect exp out).eqs ∧ Shape θ' (expect exp out).ty o := by
  cases exp with
  | none => exact ⟨hs, hsh⟩
  | some t =>
    obtain ⟨h1, h2⟩ := hexp t rfl
    refine ⟨hs.append (sat_equate (hsh.fits ?_)), hsh⟩
    rw [he.ty h1]
    exact h2

theorem Found.of {e : Expr} {exp : Option Ty} {out : Out} (hi : infer c ρ Γ exp n e = some (expect exp out)) (he : Ext n θ θ')
    (hs : Sat θ' out.eqs) (hsh : Shape θ' out.ty o) (hexp : ∀ t, exp = some t → OkTy n t ∧ Fits o (t.subst θ)) :
    Found c ρ Γ exp n θ e o := by
  obtain ⟨h1, h2⟩ := sat_expect hs hsh he hexp
  exact ⟨_, θ', hi, he, h1, h2⟩

theorem Pre.ext (h : Pre c ρ Γ n) (he : Ext n θ θ') : ρ.subst θ = ρ.subst θ' ∧ sub θ Γ = sub θ' Γ :=
  ⟨(he.ty h.ret).symm, (he.sub h.locals).symm⟩

theorem Sig.Usable.callable {s : Sig} (h : s.Usable) : (!c.callable s) = false := by
  simp only [Ctx.callable, Bool.not_eq_false', Bool.or_eq_true, Bool.not_eq_true', Bool.or_eq_false_iff, Bool.and_eq_false_iff,
    List.any_eq_false, bne_eq_false_iff_eq]
  exact .inr ⟨h.2, fun t ht => by simp [h.1 t ht]⟩

theorem Sig.Usable.value {s : Sig} (h : s.Usable) (hn : s.ret ≠ .never) : c.value s = true := by
  simp only [Ctx.value, Bool.or_eq_true, Bool.not_eq_true', Bool.or_eq_false_iff, List.any_eq_false]
  exact .inr ⟨h.2.resolve_left hn, fun t ht => by simp [h.1 t ht]⟩

theorem subst_ne_never {t : Ty} {s : Sig} (h : t ≠ .never) : t.subst (s.fresh n) ≠ .never := fun hc => h (subst_never hc)

theorem RuleAll.length : ∀ {ρ Γ es ts d}, RuleAll K ρ Γ es ts d → d = false → es.length = ts.length
  | _, _, _, _, _, .nil, _ => rfl
  | _, _, _, _, _, .cons _ h, hd => by rw [Exprs.length, List.length_cons, h.length hd]
  | _, _, _, _, _, .stop _, hd => by cases hd

mutual

theorem infer_complete : ∀ (e : Expr) {ρ : Ty} {Γ : Locals} {exp : Option Ty} {n : Nat} {θ : Nat → Ty} {o : Option Ty}, Pre c ρ Γ n → m ≤ n →
    KOk c K m θ → (∀ t, exp = some t → OkTy n t ∧ Fits o (t.subst θ)) → Rule K (ρ.subst θ) (sub θ Γ) e o → Found c ρ Γ exp n θ e o
  | .lit k p, ρ, Γ, exp, n, θ, o, hp, hm, hK, hexp, h => by
    cases h
    refine Found.of (out := ⟨native k, n, []⟩) rfl .refl (fun q hq => by cases hq) (.inr ⟨by simp [native], ?_⟩) hexp
    rw [native_subst]
  | .local x, ρ, Γ, exp, n, θ, o, hp, hm, hK, hexp, h => by
    cases h with
    | «local» h =>
      obtain ⟨t, ht, rfl⟩ := lookup_sub_inv h
      rw [← find_eq] at ht
      obtain ⟨b, hb, hbl⟩ := find_mem ht
      have hok : OkTy n t := by
        have := hp.locals b hb
        rw [hbl] at this
        exact this
      refine Found.of (out := ⟨t, n, []⟩) (by simp [infer, ht]) .refl (fun q hq => by cases hq) (.inr ⟨hok.ne_never, rfl⟩) hexp
  | .fn f, ρ, Γ, exp, n, θ, o, hp, hm, hK, hexp, h => by
    cases h with
    | @fn _ _ _ args r h =>
      obtain ⟨s, h1, h2, h3, σ, h4, rfl, h6⟩ := hK f args _ h
      rcases h6 with ⟨_, h6⟩ | ⟨hn, h6⟩
      · cases h6
      · cases h6
        refine Found.of (out := ⟨fnTy (s.args.map (·.subst (s.fresh n))) (s.ret.subst (s.fresh n)), n + s.vars.length, []⟩)
          (θ' := extend θ n (s.vars.map σ)) ?_ extend_ext (fun q hq => by cases hq) (.inr ⟨by simp [fnTy], ?_⟩) hexp
        · simp [infer, h1, h2.value hn]
        · dsimp only
          rw [fnTy_subst, extend_fresh h3 hm h4 (.inr rfl), List.map_map]
          congr 2
          exact List.map_congr_left fun t ht => (extend_fresh h3 hm h4 (.inl ht)).symm
  | .abs params body, ρ, Γ, exp, n, θ, o, hp, hm, hK, hexp, h => by
    cases h with
    | @abs _ _ _ _ args r ob hl hb hfit =>
      -- the types of the parameters and of the result
      obtain ⟨ts, rt, n', θ₁, hct, hle, hext, hts, hrt, hok, hokr, href⟩ : ∃ (ts : List Ty) (rt : Ty) (n' : Nat) (θ₁ : Nat → Ty),
          closureTys (expectedFn exp) params n = (ts, rt, n') ∧ n ≤ n' ∧ Ext n θ θ₁ ∧ ts.map (·.subst θ₁) = args ∧ rt.subst θ₁ = r ∧
          (∀ t ∈ ts, OkTy n' t) ∧ OkTy n' rt ∧ refused c (expectedFn exp) params = false := by
        cases he : expectedFn exp with
        | none =>
          refine ⟨vars n params.length, .var (n + params.length), n + params.length + 1, extend θ n (args ++ [r]), rfl, by omega,
            extend_ext, ?_, ?_, fun t ht => (vars_ok t ht).mono (by omega), .var (by omega), rfl⟩
          · have h1 := extend_vars (θ := θ) (n := n) (vs := args ++ [r])
            rw [List.length_append, List.length_singleton] at h1
            have h2 : vars n (args.length + 1) = vars n args.length ++ [.var (n + args.length)] := by
              simp [vars, List.range_succ]
            rw [h2, List.map_append] at h1
            rw [hl]
            exact (List.append_inj' h1 rfl).1
          · rw [Unify.Ty.subst]
            refine extend_at ?_
            rw [hl]; simp
        | some q =>
          obtain ⟨args', r'⟩ := q
          cases exp with
          | none => simp [expectedFn] at he
          | some t =>
            obtain ⟨hok, hf⟩ := hexp t rfl
            have heq := expectedFn_eq he hok
            have := hf _ rfl
            rw [heq, fnTy_subst] at this
            obtain ⟨ha, hr⟩ := fnTy_inj this
            rw [heq, okTy_fn] at hok
            have hlen : params.length = args'.length := by rw [hl, ha, List.length_map]
            refine ⟨args', r', n, θ, ?_, le_rfl, .refl, ha.symm, hr.symm, hok.1, hok.2, ?_⟩
            · simp [closureTys, hlen]
            · simp [refused, Ctx.surplus, hlen]
      subst hts hrt
      have hpb : Pre c rt (enter params (fixed ts) (captured params Γ)) n' :=
        ⟨hp.strict, (hp.mono hle).sigs, hokr, enter_ok hok (captured_ok (hp.mono hle).locals)⟩
      have hb' : Rule K (rt.subst θ₁) (sub θ₁ (enter params (fixed ts) (captured params Γ))) body ob := by
        rw [enter_eq, captured_eq, show fixed ts = paramTys ts from rfl, ← bindParams_sub, ← without_sub, ← (hp.ext hext).2]
        exact hb
      obtain ⟨out, θ₂, k1, k2, k3, k4⟩ := infer_complete body (exp := some rt) hpb (le_trans hm hle) (hK.ext (hext.mono hm))
        (fun t ht => by cases ht; exact ⟨hokr, hfit⟩) hb'
      refine Found.of (out := ⟨fnTy ts rt, out.next, out.eqs⟩) (θ' := θ₂) ?_ (hext.trans (k2.mono hle)) k3
        (.inr ⟨by simp [fnTy], ?_⟩) hexp
      · rw [infer, href, hct]
        simp only [Bool.false_eq_true, if_false]
        rw [k1]
        rfl
      · dsimp only
        rw [fnTy_subst, k2.tys hok, k2.ty hokr]
  | .app callee args, ρ, Γ, exp, n, θ, o, hp, hm, hK, hexp, h => by
    cases h with
    | appCallee h =>
      obtain ⟨f, θ₁, k1, k2, k3, k4⟩ := infer_complete callee (exp := none) hp hm hK (by simp) h
      rcases k4 with ⟨_, k4⟩ | ⟨_, k4⟩
      · exact Found.of (out := f) (by simp [infer, k1, k4]) k2 k3 (.inl ⟨rfl, k4⟩) hexp
      · cases k4
    | @appArgs _ _ _ _ σ ts h hs =>
      obtain ⟨f, θ₁, k1, k2, k3, k4⟩ := infer_complete callee (exp := none) hp hm hK (by simp) h
      have gf := infer_good callee hp (by simp) k1
      rcases k4 with ⟨k4, _⟩ | ⟨hn, k4⟩
      · cases k4
      · obtain ⟨e1, e2⟩ := hp.ext k2
        rw [e1, e2] at hs
        obtain ⟨a, θ₂, l1, l2, l3, l4, l5⟩ := inferAll_complete args (exp := none) (hp.mono gf.le) (le_trans hm gf.le)
          (hK.ext (k2.mono hm)) (by simp) hs
        exact Found.of (out := ⟨.never, a.next, f.eqs ++ a.eqs⟩) (by simp [infer, k1, hn, l1, l4]) (k2.trans (l2.mono gf.le))
          ((l2.sat gf.eqs k3).append l3) (.inl ⟨rfl, rfl⟩) hexp
    | @app _ _ _ _ ts r h hs =>
      obtain ⟨f, θ₁, k1, k2, k3, k4⟩ := infer_complete callee (exp := none) hp hm hK (by simp) h
      have gf := infer_good callee hp (by simp) k1
      rcases k4 with ⟨k4, _⟩ | ⟨hn, k4⟩
      · cases k4
      · obtain ⟨e1, e2⟩ := hp.ext k2
        rw [e1, e2] at hs
        obtain ⟨a, θ₂, l1, l2, l3, l4, l5⟩ := inferAll_complete args (exp := none) (hp.mono gf.le) (le_trans hm gf.le)
          (hK.ext (k2.mono hm)) (by simp) hs
        have ga := inferAll_good args (hp.mono gf.le) (by simp) l1
        have hx : Ext a.next θ₂ (extend θ₂ a.next [r]) := extend_ext
        have hfo := gf.ty.resolve_left hn
        refine Found.of (out := ⟨.var a.next, a.next + 1, f.eqs ++ a.eqs ++ equate f.ty (fnTy a.tys (.var a.next))⟩)
          (θ' := extend θ₂ a.next [r]) (by simp [infer, k1, hn, l1, l4]) ((k2.trans (l2.mono gf.le)).trans (hx.mono (le_trans gf.le ga.le)))
          (((hx.sat (fun q hq => (gf.eqs q hq).mono ga.le) (l2.sat gf.eqs k3)).append (hx.sat ga.eqs l3)).append
            (sat_equate (.inr ?_))) (.inr ⟨by simp, ?_⟩) hexp
        · rw [fnTy_subst, hx.tys (ga.tys l4), l5 rfl, hx.ty (hfo.mono ga.le), l2.ty hfo, ← Option.some.inj k4, Unify.Ty.subst]
          rw [show extend θ₂ a.next [r] a.next = r from extend_at (i := 0) rfl]
        · rw [Unify.Ty.subst, show extend θ₂ a.next [r] a.next = r from extend_at (i := 0) rfl]
  | .call f args, ρ, Γ, exp, n, θ, o, hp, hm, hK, hexp, h => by
    -- the instance of the type
    have key : ∀ {ts o' d}, K f ts o' → RuleAll K (ρ.subst θ) (sub θ Γ) args ts d → args.length = ts.length →
        o = (if d = true then none else o') → Found c ρ Γ exp n θ (.call f args) o := by
      intro ts o' d hk hs hlen ho
      obtain ⟨s, h1, h2, h3, σ, h4, rfl, h6⟩ := hK f ts _ hk
      have hx : Ext n θ (extend θ n (s.vars.map σ)) := extend_ext
      have hargs : ∀ t ∈ s.args.map (·.subst (s.fresh n)), OkTy (n + s.vars.length) t := by
        intro t ht
        obtain ⟨t', ht', rfl⟩ := List.mem_map.1 ht
        exact okTy_inst (h3.mono hm) (.inl ht') ((mentionsNever_iff _).1 (h2.1 t' ht'))
      have hmap : (s.args.map (·.subst (s.fresh n))).map (·.subst (extend θ n (s.vars.map σ))) = s.args.map (·.subst σ) := by
        rw [List.map_map]
        exact List.map_congr_left fun t ht => extend_fresh h3 hm h4 (.inl ht)
      obtain ⟨e1, e2⟩ := hp.ext hx
      rw [e1, e2] at hs
      have hle : n ≤ n + s.vars.length := Nat.le_add_right _ _
      obtain ⟨a, θ₂, l1, l2, l3, l4, l5⟩ := inferAll_complete args (exp := some (s.args.map (·.subst (s.fresh n)))) (hp.mono hle)
        (le_trans hm hle) (hK.ext (hx.mono hm)) (fun ts hts => by cases hts; exact ⟨hargs, hmap⟩) hs
      have hlen' : s.args.length = args.length := by rw [hlen, List.length_map]
      have hcall : c.callable s = true := by simpa using h2.callable (c := c)
      cases d with
      | true =>
        subst ho
        exact Found.of (out := ⟨.never, a.next, a.eqs⟩) (by simp [infer, h1, hlen', hcall, l1, l4]) (hx.trans (l2.mono hle)) l3
          (.inl ⟨by simp, rfl⟩) hexp
      | false =>
        refine Found.of (out := ⟨s.ret.subst (s.fresh n), a.next, a.eqs⟩) (by simp [infer, h1, hlen', hcall, l1, l4])
          (hx.trans (l2.mono hle)) l3 ?_ hexp
        simp only [Bool.false_eq_true, if_false] at ho
        subst ho
        rcases h6 with ⟨h6, rfl⟩ | ⟨h6, rfl⟩
        · left
          exact ⟨rfl, by dsimp only; rw [h6, Unify.Ty.subst]⟩
        · right
          refine ⟨subst_ne_never h6, ?_⟩
          dsimp only
          rw [l2.ty (okTy_inst (h3.mono hm) (.inr rfl) ((mentionsNever_iff _).1 (h2.2.resolve_left h6))), extend_fresh h3 hm h4 (.inr rfl)]
    cases h with
    | call hk hs => exact key hk hs (hs.length rfl) (by simp)
    | callArgs hk hl hs => exact key hk hs hl (by simp)
  | .block body, ρ, Γ, exp, n, θ, o, hp, hm, hK, hexp, h => by
    cases h with
    | block h =>
      rw [← unit_subst (σ := θ)] at h
      obtain ⟨out, θ₁, k1, k2, k3, k4⟩ := inferStmts_complete body hp hm hK okTy_unit h
      exact Found.of (out := out) (by simp [infer, k1]) k2 k3 k4 hexp
  | .assign x value, ρ, Γ, exp, n, θ, o, hp, hm, hK, hexp, h => by
    have key : ∀ {τ ov}, lookup x (sub θ Γ) = some (true, τ) → Rule K (ρ.subst θ) (sub θ Γ) value ov → Fits ov τ →
        o = ov.map (fun _ => unit) → Found c ρ Γ exp n θ (.assign x value) o := by
      intro τ ov hl hv hf ho
      obtain ⟨t, ht, rfl⟩ := lookup_sub_inv hl
      rw [← find_eq] at ht
      obtain ⟨b, hb, hbl⟩ := find_mem ht
      have hok : OkTy n t := by
        have := hp.locals b hb
        rw [hbl] at this
        exact this
      obtain ⟨v, θ₁, k1, k2, k3, k4⟩ := infer_complete value (exp := none) hp hm hK (by simp) hv
      refine Found.of (out := ⟨if v.ty = .never then .never else unit, v.next, v.eqs ++ equate v.ty t⟩)
        (by simp [infer, ht, k1]) k2 (k3.append (sat_equate (k4.fits (by rw [k2.ty hok]; exact hf)))) ?_ hexp
      rcases k4 with ⟨rfl, k4⟩ | ⟨k4, rfl⟩
      · left; exact ⟨ho, if_pos k4⟩
      · right
        dsimp only
        rw [if_neg k4]
        refine ⟨by simp [unit, tupleTy], ?_⟩
        rw [unit_subst]; exact ho
    cases h with
    | assign hl hv => exact key hl hv (fun σ h => by cases h; rfl) rfl
    | assignValue hl hv => exact key hl hv (fun σ h => by cases h) rfl
  | .tuple items, ρ, Γ, exp, n, θ, o, hp, hm, hK, hexp, h => by
    cases h with
    | @tuple _ _ _ ts hs =>
      obtain ⟨a, θ₂, l1, l2, l3, l4, l5⟩ := inferAll_complete items (exp := none) hp hm hK (by simp) hs
      refine Found.of (out := ⟨if a.diverges then .never else tupleTy a.tys, a.next, a.eqs⟩) (by simp [infer, l1]) l2 l3 ?_ hexp
      right
      rw [l4]
      refine ⟨by simp [tupleTy], ?_⟩
      simp only [Bool.false_eq_true, if_false]
      rw [tupleTy_subst, l5 rfl]
    | tupleItems hs =>
      obtain ⟨a, θ₂, l1, l2, l3, l4, l5⟩ := inferAll_complete items (exp := none) hp hm hK (by simp) hs
      refine Found.of (out := ⟨if a.diverges then .never else tupleTy a.tys, a.next, a.eqs⟩) (by simp [infer, l1]) l2 l3 ?_ hexp
      left
      rw [l4]
      exact ⟨rfl, rfl⟩
  | .ite cond yes no, ρ, Γ, exp, n, θ, o, hp, hm, hK, hexp, h => by
    have key : ∀ {oa ob τ}, Rule K (ρ.subst θ) (sub θ Γ) cond (some bool) → Rule K (ρ.subst θ) (sub θ Γ) yes oa →
        Rule K (ρ.subst θ) (sub θ Γ) no ob → Fits oa τ → Fits ob τ → (oa = none ∧ ob = none → o = none) →
        (¬ (oa = none ∧ ob = none) → o = some τ) → Found c ρ Γ exp n θ (.ite cond yes no) o := by
      intro oa ob τ hc ha hb fa fb hn1 hn2
      obtain ⟨b, θ₁, k1, k2, k3, k4⟩ := infer_complete cond (exp := none) hp hm hK (by simp) hc
      have gb := infer_good cond hp (by simp) k1
      rcases k4 with ⟨k4, _⟩ | ⟨hn, k4⟩
      · cases k4
      have hx : Ext b.next θ₁ (extend θ₁ b.next [τ]) := extend_ext
      have hat : extend θ₁ b.next [τ] b.next = τ := extend_at (i := 0) rfl
      have hx0 : Ext n θ (extend θ₁ b.next [τ]) := k2.trans (hx.mono gb.le)
      have hle : n ≤ b.next + 1 := le_trans gb.le (Nat.le_succ _)
      have hvar : OkTy (b.next + 1) (.var b.next) := .var (Nat.lt_succ_self _)
      obtain ⟨e1, e2⟩ := hp.ext hx0
      obtain ⟨el, θ₂, l1, l2, l3, l4⟩ := infer_complete no (exp := some (.var b.next)) (hp.mono hle) (le_trans hm hle)
        (hK.ext (hx0.mono hm)) (fun t ht => by cases ht; exact ⟨hvar, by rw [Unify.Ty.subst, hat]; exact fb⟩) (by rw [← e1, ← e2]; exact hb)
      have ge := infer_good no (hp.mono hle) (fun t h => by cases h; exact hvar) l1
      have hx1 : Ext n θ θ₂ := hx0.trans (l2.mono hle)
      have hle' : n ≤ el.next := le_trans hle ge.le
      have hvar' : OkTy el.next (.var b.next) := hvar.mono ge.le
      have hat2 : (Ty.var b.next).subst θ₂ = τ := by rw [l2.ty hvar, Unify.Ty.subst, hat]
      obtain ⟨e3, e4⟩ := hp.ext hx1
      obtain ⟨th, θ₃, p1, p2, p3, p4⟩ := infer_complete yes (exp := some (.var b.next)) (hp.mono hle') (le_trans hm hle')
        (hK.ext (hx1.mono hm)) (fun t ht => by cases ht; exact ⟨hvar', by rw [hat2]; exact fa⟩) (by rw [← e3, ← e4]; exact ha)
      have gt := infer_good yes (hp.mono hle') (fun t h => by cases h; exact hvar') p1
      have hat3 : (Ty.var b.next).subst θ₃ = τ := by rw [p2.ty hvar', hat2]
      -- from the first to the last assignment
      have hb1 : Ext b.next θ₁ θ₃ := hx.trans ((l2.mono (Nat.le_succ _)).trans (p2.mono (le_trans (Nat.le_succ _) ge.le)))
      refine Found.of (out := ⟨if th.ty = .never ∧ el.ty = .never then .never else .var b.next, th.next,
          b.eqs ++ el.eqs ++ equate el.ty (.var b.next) ++ equate bool b.ty ++ th.eqs ++ equate th.ty (.var b.next)⟩) (θ' := θ₃)
        (by simp [infer, k1, hn, l1, p1]) (hx1.trans (p2.mono hle'))
        ((((((hb1.sat gb.eqs k3).append (p2.sat ge.eqs l3)).append (sat_equate ?_)).append (sat_equate (.inr ?_))).append p3).append
          (sat_equate ?_)) ?_ hexp
      · have := (l4.ext p2 ge.ty).fits (t := .var b.next) (by rw [hat3]; exact fb)
        exact this
      · rw [bool_subst, hb1.ty (gb.ty.resolve_left hn)]
        exact Option.some.inj k4
      · exact p4.fits (by rw [hat3]; exact fa)
      · by_cases hboth : th.ty = .never ∧ el.ty = .never
        · left
          refine ⟨hn1 ⟨?_, ?_⟩, if_pos hboth⟩
          · rcases p4 with p4 | p4
            · exact p4.1
            · exact absurd hboth.1 p4.1
          · rcases l4 with l4 | l4
            · exact l4.1
            · exact absurd hboth.2 l4.1
        · right
          dsimp only
          rw [if_neg hboth, hat3]
          refine ⟨by simp, hn2 fun hc => hboth ⟨?_, ?_⟩⟩
          · rcases p4 with p4 | p4
            · exact p4.2
            · rw [hc.1] at p4; cases p4.2
          · rcases l4 with l4 | l4
            · exact l4.2
            · rw [hc.2] at l4; cases l4.2
    cases h with
    | ite hc ha hb fa fb hn => exact key hc ha hb fa fb (fun h => absurd h hn) (fun _ => rfl)
    | iteBranches hc ha hb => exact key (τ := unit) hc ha hb (fun σ h => by cases h) (fun σ h => by cases h) (fun _ => rfl) (fun h => absurd ⟨rfl, rfl⟩ h)
    | iteCond h =>
      obtain ⟨b, θ₁, k1, k2, k3, k4⟩ := infer_complete cond (exp := none) hp hm hK (by simp) h
      rcases k4 with ⟨_, k4⟩ | ⟨_, k4⟩
      · exact Found.of (out := b) (by simp [infer, k1, k4]) k2 k3 (.inl ⟨rfl, k4⟩) hexp
      · cases k4
  | .ret value, ρ, Γ, exp, n, θ, o, hp, hm, hK, hexp, h => by
    cases h with
    | ret hv hf =>
      obtain ⟨v, θ₁, k1, k2, k3, k4⟩ := infer_complete value (exp := none) hp hm hK (by simp) hv
      exact Found.of (out := ⟨.never, v.next, v.eqs ++ equate v.ty ρ⟩) (by simp [infer, k1]) k2
        (k3.append (sat_equate (k4.fits (by rw [k2.ty hp.ret]; exact hf)))) (.inl ⟨rfl, rfl⟩) hexp

theorem inferAll_complete : ∀ (es : Exprs) {ρ : Ty} {Γ : Locals} {exp : Option (List Ty)} {n : Nat} {θ : Nat → Ty} {ts : List Ty} {d : Bool},
    Pre c ρ Γ n → m ≤ n → KOk c K m θ → (∀ us, exp = some us → (∀ t ∈ us, OkTy n t) ∧ us.map (·.subst θ) = ts) →
    RuleAll K (ρ.subst θ) (sub θ Γ) es ts d →
    ∃ out θ', inferAll c ρ Γ exp n es = some out ∧ Ext n θ θ' ∧ Sat θ' out.eqs ∧ out.diverges = d ∧ (d = false → out.tys.map (·.subst θ') = ts)
  | .nil, ρ, Γ, exp, n, θ, ts, d, hp, hm, hK, hexp, h => by
    cases h
    exact ⟨⟨[], false, n, []⟩, θ, rfl, .refl, (fun q hq => by cases hq), rfl, fun _ => rfl⟩
  | .cons e rest, ρ, Γ, exp, n, θ, ts, d, hp, hm, hK, hexp, h => by
    cases h with
    | @cons _ _ _ _ τ ts _ he hr =>
      have hexp1 : ∀ t, (exp >>= List.head?) = some t → OkTy n t ∧ Fits (some τ) (t.subst θ) := by
        intro t ht
        cases exp with
        | none => cases ht
        | some us =>
          obtain ⟨h1, h2⟩ := hexp us rfl
          cases us with
          | nil => cases ht
          | cons u us =>
            cases ht
            refine ⟨h1 _ List.mem_cons_self, fun σ hσ => ?_⟩
            cases hσ
            exact (List.cons.inj h2).1.symm
      obtain ⟨v, θ₁, k1, k2, k3, k4⟩ := infer_complete e hp hm hK hexp1 he
      have g := infer_good e hp (fun t ht => (hexp1 t ht).1) k1
      rcases k4 with ⟨k4, _⟩ | ⟨hn, k4⟩
      · cases k4
      obtain ⟨e1, e2⟩ := hp.ext k2
      rw [e1, e2] at hr
      have hexp2 : ∀ us, exp.map List.tail = some us → (∀ t ∈ us, OkTy v.next t) ∧ us.map (·.subst θ₁) = ts := by
        intro us hus
        cases exp with
        | none => cases hus
        | some us' =>
          cases hus
          obtain ⟨h1, h2⟩ := hexp us' rfl
          refine ⟨fun t ht => (h1 t (List.mem_of_mem_tail ht)).mono g.le, ?_⟩
          rw [k2.tys fun t ht => h1 t (List.mem_of_mem_tail ht), List.map_tail, h2, List.tail_cons]
      obtain ⟨a, θ₂, l1, l2, l3, l4, l5⟩ := inferAll_complete rest (hp.mono g.le) (le_trans hm g.le) (hK.ext (k2.mono hm)) hexp2 hr
      refine ⟨⟨v.ty :: a.tys, a.diverges, a.next, v.eqs ++ a.eqs⟩, θ₂, by rw [inferAll, k1]; show (if _ then _ else _) = _; rw [if_neg hn, l1]; rfl, k2.trans (l2.mono g.le),
        (l2.sat g.eqs k3).append l3, l4, fun hd => ?_⟩
      rw [List.map_cons, l5 hd, l2.ty (g.ty.resolve_left hn), ← Option.some.inj k4]
    | stop he =>
      obtain ⟨v, θ₁, k1, k2, k3, k4⟩ := infer_complete e (exp := exp >>= List.head?) hp hm hK (fun t ht => by
        refine ⟨?_, fun σ h => by cases h⟩
        cases exp with
        | none => cases ht
        | some us =>
          cases us with
          | nil => cases ht
          | cons u us => cases ht; exact (hexp _ rfl).1 _ (by simp)) he
      rcases k4 with ⟨_, k4⟩ | ⟨_, k4⟩
      · exact ⟨⟨[v.ty], true, v.next, v.eqs⟩, θ₁, by rw [inferAll, k1]; show (if _ then _ else _) = _; rw [if_pos k4], k2, k3, rfl, fun h => by cases h⟩
      · cases k4

theorem inferStmts_complete : ∀ (s : Stmts) {ρ : Ty} {Γ : Locals} {last : Ty} {n : Nat} {θ : Nat → Ty} {o : Option Ty},
    Pre c ρ Γ n → m ≤ n → KOk c K m θ → OkTy n last → RuleStmts K (ρ.subst θ) (sub θ Γ) (last.subst θ) s o →
    ∃ out θ', inferStmts c ρ Γ last n s = some out ∧ Ext n θ θ' ∧ Sat θ' out.eqs ∧ Shape θ' out.ty o
  | .nil, ρ, Γ, last, n, θ, o, hp, hm, hK, hl, h => by
    cases h
    exact ⟨⟨last, n, []⟩, θ, rfl, .refl, (fun q hq => by cases hq), .inr ⟨hl.ne_never, rfl⟩⟩
  | .bind x b e rest, ρ, Γ, last, n, θ, o, hp, hm, hK, hl, h => by
    cases h with
    | bind he hr =>
      obtain ⟨v, θ₁, k1, k2, k3, k4⟩ := infer_complete e (exp := none) hp hm hK (by simp) he
      have g := infer_good e hp (by simp) k1
      rcases k4 with ⟨k4, _⟩ | ⟨hn, k4⟩
      · cases k4
      obtain ⟨e1, e2⟩ := hp.ext k2
      rw [e1, e2, Option.some.inj k4, ← unit_subst (σ := θ₁)] at hr
      have hp' := hp.mono g.le
      obtain ⟨a, θ₂, l1, l2, l3, l4⟩ := inferStmts_complete rest (Γ := (x, b, v.ty) :: Γ) (last := unit) ⟨hp'.strict, hp'.sigs, hp'.ret, fun q hq => by
        rcases List.mem_cons.1 hq with rfl | hq
        · exact g.ty.resolve_left hn
        · exact hp'.locals q hq⟩ (le_trans hm g.le) (hK.ext (k2.mono hm)) okTy_unit hr
      exact ⟨⟨a.ty, a.next, v.eqs ++ a.eqs⟩, θ₂, by simp [inferStmts, k1, hn, l1], k2.trans (l2.mono g.le), (l2.sat g.eqs k3).append l3, l4⟩
    | bindValue he =>
      obtain ⟨v, θ₁, k1, k2, k3, k4⟩ := infer_complete e (exp := none) hp hm hK (by simp) he
      rcases k4 with ⟨_, k4⟩ | ⟨_, k4⟩
      · exact ⟨v, θ₁, by simp [inferStmts, k1, k4], k2, k3, .inl ⟨rfl, k4⟩⟩
      · cases k4
  | .expr e rest, ρ, Γ, last, n, θ, o, hp, hm, hK, hl, h => by
    cases h with
    | expr he hr =>
      obtain ⟨v, θ₁, k1, k2, k3, k4⟩ := infer_complete e (exp := none) hp hm hK (by simp) he
      have g := infer_good e hp (by simp) k1
      rcases k4 with ⟨k4, _⟩ | ⟨hn, k4⟩
      · cases k4
      obtain ⟨e1, e2⟩ := hp.ext k2
      rw [e1, e2, Option.some.inj k4] at hr
      obtain ⟨a, θ₂, l1, l2, l3, l4⟩ := inferStmts_complete rest (hp.mono g.le) (le_trans hm g.le) (hK.ext (k2.mono hm))
        (g.ty.resolve_left hn) hr
      exact ⟨⟨a.ty, a.next, v.eqs ++ a.eqs⟩, θ₂, by simp [inferStmts, k1, hn, l1], k2.trans (l2.mono g.le), (l2.sat g.eqs k3).append l3, l4⟩
    | exprValue he =>
      obtain ⟨v, θ₁, k1, k2, k3, k4⟩ := infer_complete e (exp := none) hp hm hK (by simp) he
      rcases k4 with ⟨_, k4⟩ | ⟨_, k4⟩
      · exact ⟨v, θ₁, by simp [inferStmts, k1, k4], k2, k3, .inl ⟨rfl, k4⟩⟩
      · cases k4

end

end Ferlium.TypeInfer
