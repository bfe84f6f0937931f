import Verif.Proofs.TypeInferSubst

/-!
Inference follows the typing rules.
-/
namespace Ferlium.TypeInfer

open Unify (Ty Args Head Table)

/-- The assignment makes the equations true. -/
def Sat (θ : Nat → Ty) (eqs : List (Ty × Ty)) : Prop := ∀ q ∈ eqs, q.1 = .never ∨ q.1.subst θ = q.2.subst θ

/-- The functions can be used at the types of their schemes. -/
def IOk (c : Ctx) (I : Insts) (θ : Nat → Ty) : Prop :=
  ∀ (f : Nat) (s : Sig), c.sigs[f]? = some s → ∀ σ : Nat → Ty, (∀ v, v ∉ s.vars → σ v = θ v) → ∀ r,
    (s.ret = .never ∨ r = s.ret.subst σ) → I f (s.args.map (·.subst σ)) r

/-- The scheme is well-made. -/
def SigOk (n : Nat) (s : Sig) : Prop :=
  ∀ t, t ∈ s.args ∨ t = s.ret → t.Sorted sorts ∧ ∀ v, t.contains v = true → v ∈ s.vars ∨ v < n

/-- The equation is well-made. -/
def EqOk (n : Nat) (q : Ty × Ty) : Prop := (q.1 = .never ∨ OkTy n q.1) ∧ OkTy n q.2

theorem EqOk.mono {m n : Nat} {q : Ty × Ty} (h : EqOk m q) (hmn : m ≤ n) : EqOk n q :=
  ⟨h.1.imp id fun h => h.mono hmn, h.2.mono hmn⟩

theorem SigOk.mono {m n : Nat} {s : Sig} (h : SigOk m s) (hmn : m ≤ n) : SigOk n s := fun t ht =>
  ⟨(h t ht).1, fun v hv => ((h t ht).2 v hv).imp id fun h => lt_of_lt_of_le h hmn⟩

/-- The inference of an expression is as it should be. -/
structure Good (c : Ctx) (ρ : Ty) (Γ : Locals) (e : Expr) (n : Nat) (o : Out) : Prop where
  le : n ≤ o.next
  ty : o.ty = .never ∨ OkTy o.next o.ty
  eqs : ∀ q ∈ o.eqs, EqOk o.next q
  typed : ∀ θ I, Sat θ o.eqs → IOk c I θ → ∀ τ, o.ty = .never ∨ o.ty.subst θ = τ → HasTy I (ρ.subst θ) (sub θ Γ) e τ

/-- The same for expressions one after the other. -/
structure GoodAll (c : Ctx) (ρ : Ty) (Γ : Locals) (expected : Option (List Ty)) (es : Exprs) (n : Nat) (o : Outs) : Prop where
  le : n ≤ o.next
  tys : o.diverges = false → ∀ t ∈ o.tys, OkTy o.next t
  eqs : ∀ q ∈ o.eqs, EqOk o.next q
  diverge : o.diverges = true → ∀ θ I, Sat θ o.eqs → IOk c I θ → Diverge I (ρ.subst θ) (sub θ Γ) es
  typed : o.diverges = false → ∀ θ I, Sat θ o.eqs → IOk c I θ → HasTys I (ρ.subst θ) (sub θ Γ) es (o.tys.map (·.subst θ))
  expected : ∀ ts, expected = some ts → ts.length = es.length → o.diverges = false → ∀ θ, Sat θ o.eqs →
    o.tys.map (·.subst θ) = ts.map (·.subst θ)

/-- The same for statements. -/
structure GoodStmts (c : Ctx) (ρ : Ty) (Γ : Locals) (last : Ty) (s : Stmts) (n : Nat) (o : Out) : Prop where
  le : n ≤ o.next
  ty : o.ty = .never ∨ OkTy o.next o.ty
  eqs : ∀ q ∈ o.eqs, EqOk o.next q
  typed : ∀ θ I, Sat θ o.eqs → IOk c I θ → ∀ τ, o.ty = .never ∨ o.ty.subst θ = τ →
    StmtsTy I (ρ.subst θ) (sub θ Γ) (last.subst θ) s τ

variable {c : Ctx} {ρ : Ty} {Γ : Locals} {e : Expr} {n : Nat} {o : Out} {θ : Nat → Ty}

theorem Sat.left {a b : List (Ty × Ty)} (h : Sat θ (a ++ b)) : Sat θ a := fun q hq => h q (List.mem_append_left _ hq)

theorem Sat.right {a b : List (Ty × Ty)} (h : Sat θ (a ++ b)) : Sat θ b := fun q hq => h q (List.mem_append_right _ hq)

theorem Sat.equate {a b : Ty} (h : Sat θ (equate a b)) : a = .never ∨ a.subst θ = b.subst θ := by
  unfold TypeInfer.equate at h
  by_cases hab : a = b
  · exact .inr (by rw [hab])
  · rw [if_neg hab] at h
    exact h (a, b) (by simp)

theorem equate_ok {a b : Ty} (ha : a = .never ∨ OkTy n a) (hb : OkTy n b) : ∀ q ∈ equate a b, EqOk n q := by
  intro q hq
  unfold equate at hq
  split at hq
  · cases hq
  · simp only [List.mem_singleton] at hq
    subst hq
    exact ⟨ha, hb⟩

theorem Good.expect (h : Good c ρ Γ e n o) {exp : Option Ty} (ht : ∀ t, exp = some t → OkTy n t) : Good c ρ Γ e n (expect exp o) := by
  cases exp with
  | none => exact h
  | some t =>
    refine ⟨h.le, h.ty, ?_, fun θ I hs hI => h.typed θ I hs.left hI⟩
    intro q hq
    rcases List.mem_append.1 hq with hq | hq
    · exact h.eqs q hq
    · exact equate_ok h.ty ((ht t rfl).mono h.le) q hq

theorem expect_sat {t : Ty} (h : Sat θ (expect (some t) o).eqs) :
    (expect (some t) o).ty = .never ∨ (expect (some t) o).ty.subst θ = t.subst θ :=
  (Sat.right h).equate

theorem infer_expect {exp : Option Ty} (h : infer c ρ Γ exp n e = some o) : ∃ o', o = expect exp o' := by
  cases e with
  | lit => simp only [infer, Option.some.injEq] at h; exact ⟨_, h.symm⟩
  | «local» =>
    simp only [infer, Option.map_eq_some_iff] at h
    obtain ⟨_, _, h⟩ := h
    exact ⟨_, h.symm⟩
  | fn =>
    simp only [infer, Option.bind_eq_bind, Option.bind_eq_some_iff] at h
    obtain ⟨_, _, h⟩ := h
    split at h
    · exact ⟨_, (Option.some.inj h).symm⟩
    · cases h
  | abs =>
    simp only [infer] at h
    split at h
    · cases h
    · simp only [Option.bind_eq_bind, Option.bind_eq_some_iff] at h
      obtain ⟨_, _, h⟩ := h
      exact ⟨_, (Option.some.inj h).symm⟩
  | app =>
    simp only [infer, Option.bind_eq_bind, Option.bind_eq_some_iff] at h
    obtain ⟨_, _, h⟩ := h
    split at h
    · exact ⟨_, (Option.some.inj h).symm⟩
    · simp only [Option.bind_eq_some_iff] at h
      obtain ⟨_, _, h⟩ := h
      split at h <;> exact ⟨_, (Option.some.inj h).symm⟩
  | call =>
    simp only [infer, Option.bind_eq_bind, Option.bind_eq_some_iff] at h
    obtain ⟨_, _, h⟩ := h
    split at h
    · cases h
    · split at h
      · cases h
      · simp only [Option.bind_eq_some_iff] at h
        obtain ⟨_, _, h⟩ := h
        split at h <;> exact ⟨_, (Option.some.inj h).symm⟩
  | block =>
    simp only [infer, Option.map_eq_some_iff] at h
    obtain ⟨_, _, h⟩ := h
    exact ⟨_, h.symm⟩
  | assign =>
    simp only [infer, Option.bind_eq_bind, Option.bind_eq_some_iff] at h
    obtain ⟨_, _, h⟩ := h
    split at h
    · cases h
    · simp only [Option.bind_eq_some_iff] at h
      obtain ⟨_, _, h⟩ := h
      exact ⟨_, (Option.some.inj h).symm⟩
  | tuple =>
    simp only [infer, Option.bind_eq_bind, Option.bind_eq_some_iff] at h
    obtain ⟨_, _, h⟩ := h
    exact ⟨_, (Option.some.inj h).symm⟩
  | ite =>
    simp only [infer, Option.bind_eq_bind, Option.bind_eq_some_iff] at h
    obtain ⟨_, _, h⟩ := h
    split at h
    · exact ⟨_, (Option.some.inj h).symm⟩
    · simp only [Option.bind_eq_some_iff] at h
      obtain ⟨_, _, _, _, h⟩ := h
      exact ⟨_, (Option.some.inj h).symm⟩
  | ret =>
    simp only [infer, Option.bind_eq_bind, Option.bind_eq_some_iff] at h
    obtain ⟨_, _, h⟩ := h
    exact ⟨_, (Option.some.inj h).symm⟩

theorem infer_checked {t : Ty} (h : infer c ρ Γ (some t) n e = some o) (hs : Sat θ o.eqs) : o.ty = .never ∨ o.ty.subst θ = t.subst θ := by
  obtain ⟨o', rfl⟩ := infer_expect h
  exact expect_sat hs

theorem okTy_inst {s : Sig} (h : SigOk n s) {t : Ty} (ht : t ∈ s.args ∨ t = s.ret) (hr : t.NoNever) :
    OkTy (n + s.vars.length) (t.subst (s.fresh n)) := by
  obtain ⟨h1, h2⟩ := h t ht
  have hv : ∀ v, ∃ w, s.fresh n v = .var w := fun v => by unfold Sig.fresh; split <;> exact ⟨_, rfl⟩
  refine ⟨?_, ?_, ?_⟩
  · intro v hv
    rw [Unify.Ty.contains_subst] at hv
    obtain ⟨w, hw, hv⟩ := hv
    unfold Sig.fresh at hv
    split at hv
    · next hm =>
      simp only [Unify.Ty.contains, beq_iff_eq] at hv
      have := List.idxOf_lt_length_of_mem hm
      omega
    · next hm =>
      simp only [Unify.Ty.contains, beq_iff_eq] at hv
      rcases h2 w hw with h | h
      · exact absurd h hm
      · omega
  · refine Unify.Ty.sorted_subst t h1 fun v _ => ?_
    obtain ⟨w, hw⟩ := hv v
    rw [hw]; simp [Unify.Ty.Sorted]
  · refine noNever_subst t hr fun v _ => ?_
    obtain ⟨w, hw⟩ := hv v
    rw [hw]; simp [Unify.Ty.NoNever]

theorem vars_ok {k : Nat} : ∀ t ∈ vars n k, OkTy (n + k) t := by
  intro t ht
  simp only [vars, List.mem_map, List.mem_range] at ht
  obtain ⟨i, hi, rfl⟩ := ht
  exact .var (by omega)

theorem closureTys_ok (hc : c.strict = true) {exp : Option Ty} (ht : ∀ t, exp = some t → OkTy n t) {params : List Name}
    (hr : ¬ refused c (expectedFn exp) params = true) :
    n ≤ (closureTys (expectedFn exp) params n).2.2 ∧
    (∀ t ∈ (closureTys (expectedFn exp) params n).1, OkTy (closureTys (expectedFn exp) params n).2.2 t) ∧
    OkTy (closureTys (expectedFn exp) params n).2.2 (closureTys (expectedFn exp) params n).2.1 ∧
    params.length = (closureTys (expectedFn exp) params n).1.length := by
  cases he : expectedFn exp with
  | none =>
    simp only [closureTys]
    exact ⟨by omega, fun t ht => (vars_ok t ht).mono (by omega), .var (by omega), by simp [vars]⟩
  | some q =>
    obtain ⟨args, r⟩ := q
    cases exp with
    | none => simp [expectedFn] at he
    | some t =>
      have hok := ht t rfl
      rw [expectedFn_eq he hok, okTy_fn] at hok
      rw [he] at hr
      simp only [refused, Ctx.surplus, hc] at hr
      simp only [closureTys]
      refine ⟨le_rfl, fun t ht => hok.1 t (List.mem_of_mem_take ht), hok.2, ?_⟩
      simp at hr
      rw [List.length_take]
      omega

theorem find_mem {x : Name} : ∀ {l : List (Name × α)} {a : α}, find x l = some a → ∃ b ∈ l, b.2 = a
  | [], _, h => by simp [find] at h
  | (y, b) :: rest, a, h => by
    simp only [find] at h
    split at h
    · cases h; exact ⟨_, List.mem_cons_self, rfl⟩
    · obtain ⟨q, hq, h⟩ := find_mem h
      exact ⟨q, List.mem_cons_of_mem _ hq, h⟩

theorem enter_ok {m : Nat} {params : List Name} {ts : List Ty} (h : ∀ t ∈ ts, OkTy m t) (hΓ : ∀ b ∈ Γ, OkTy m b.2.2) :
    ∀ b ∈ enter params (fixed ts) Γ, OkTy m b.2.2 := by
  intro b hb
  simp only [enter, List.mem_append, List.mem_reverse] at hb
  rcases hb with hb | hb
  · have := (List.of_mem_zip hb).2
    simp only [fixed, List.mem_map] at this
    obtain ⟨t, ht, h'⟩ := this
    rw [← h']
    exact h t ht
  · exact hΓ b hb

theorem captured_ok {m : Nat} {params : List Name} (hΓ : ∀ b ∈ Γ, OkTy m b.2.2) : ∀ b ∈ captured params Γ, OkTy m b.2.2 :=
  fun b hb => hΓ b (List.mem_of_mem_filter hb)

theorem inst_subst {s : Sig} (t : Ty) : (t.subst (s.fresh n)).subst θ = t.subst (fun v => (s.fresh n v).subst θ) := Unify.Ty.subst_subst t

theorem IOk.inst {I : Insts} (h : IOk c I θ) {f : Nat} {s : Sig} (hs : c.sigs[f]? = some s) {r : Ty}
    (hr : s.ret = .never ∨ r = (s.ret.subst (s.fresh n)).subst θ) : I f ((s.args.map (·.subst (s.fresh n))).map (·.subst θ)) r := by
  have := h f s hs (fun v => (s.fresh n v).subst θ) (fun v hv => by simp [Sig.fresh, hv, Unify.Ty.subst]) r
    (hr.imp id fun hr => by rw [hr, inst_subst])
  rw [List.map_map]
  convert this using 1
  exact List.map_congr_left fun t _ => inst_subst t

theorem subst_never {t : Ty} {s : Sig} (h : t.subst (s.fresh n) = .never) : t = .never := by
  cases t with
  | never => rfl
  | var v =>
    rw [Unify.Ty.subst] at h
    unfold Sig.fresh at h
    split at h <;> cases h
  | node => rw [Unify.Ty.subst] at h; cases h

/-- What inference may assume. -/
structure Pre (c : Ctx) (ρ : Ty) (Γ : Locals) (n : Nat) : Prop where
  strict : c.strict = true
  sigs : ∀ (f : Nat) (s : Sig), c.sigs[f]? = some s → SigOk n s
  ret : OkTy n ρ
  locals : ∀ b ∈ Γ, OkTy n b.2.2

theorem Pre.mono (h : Pre c ρ Γ n) {m : Nat} (hm : n ≤ m) : Pre c ρ Γ m :=
  ⟨h.strict, fun f s hs => (h.sigs f s hs).mono hm, h.ret.mono hm, fun b hb => (h.locals b hb).mono hm⟩

theorem Good.two {c : Ctx} (h : Good c ρ Γ e n o) (hn : o.ty = .never) {I : Insts} (hs : Sat θ o.eqs) (hI : IOk c I θ) :
    HasTy I (ρ.subst θ) (sub θ Γ) e (native 0) ∧ HasTy I (ρ.subst θ) (sub θ Γ) e (native 1) :=
  ⟨h.typed θ I hs hI _ (.inl hn), h.typed θ I hs hI _ (.inl hn)⟩

mutual

theorem infer_good : ∀ (e : Expr) {ρ : Ty} {Γ : Locals} {exp : Option Ty} {n : Nat} {o : Out}, Pre c ρ Γ n →
    (∀ t, exp = some t → OkTy n t) → infer c ρ Γ exp n e = some o → Good c ρ Γ e n o
  | .lit k _, ρ, Γ, exp, n, o, hp, ht, h => by
    simp only [infer, Option.some.injEq] at h
    subst h
    refine Good.expect ?_ ht
    refine ⟨le_rfl, .inr .native, by simp, ?_⟩
    intro θ I _ _ τ hτ
    rcases hτ with hτ | hτ
    · cases hτ
    · simp only [native_subst] at hτ
      subst hτ
      exact .lit
  | .local x, ρ, Γ, exp, n, o, hp, ht, h => by
    simp only [infer, Option.map_eq_some_iff] at h
    obtain ⟨l, hl, rfl⟩ := h
    obtain ⟨b, hb, hbl⟩ := find_mem hl
    have hok : OkTy n l.2 := by rw [← hbl]; exact hp.locals b hb
    refine Good.expect ?_ ht
    refine ⟨le_rfl, .inr hok, by simp, ?_⟩
    intro θ I _ _ τ hτ
    rcases hτ with hτ | hτ
    · exact absurd hτ hok.ne_never
    · subst hτ
      rw [find_eq] at hl
      exact .local (m := l.1) (lookup_sub hl)
  | .fn f, ρ, Γ, exp, n, o, hp, ht, h => by
    simp only [infer, Option.bind_eq_bind, Option.bind_eq_some_iff] at h
    obtain ⟨s, hs, h⟩ := h
    split at h
    · next hv =>
      obtain rfl := (Option.some.inj h)
      have hsig := hp.sigs f s hs
      simp only [Ctx.value, hp.strict, Bool.not_true, Bool.false_or, Bool.not_eq_true', Bool.or_eq_false_iff, List.any_eq_false] at hv
      obtain ⟨hv1, hv2⟩ := hv
      have hok : OkTy (n + s.vars.length) (fnTy (s.args.map (·.subst (s.fresh n))) (s.ret.subst (s.fresh n))) := by
        rw [okTy_fn]
        constructor
        · intro t ht
          obtain ⟨t', ht', rfl⟩ := List.mem_map.1 ht
          exact okTy_inst hsig (.inl ht') ((mentionsNever_iff _).1 (by simpa using hv2 t' ht'))
        · exact okTy_inst hsig (.inr rfl) ((mentionsNever_iff _).1 hv1)
      refine Good.expect ?_ ht
      refine ⟨Nat.le_add_right _ _, .inr hok, by simp, ?_⟩
      intro θ I _ hI τ hτ
      rcases hτ with hτ | hτ
      · exact absurd hτ hok.ne_never
      · subst hτ
        dsimp only
        rw [fnTy_subst]
        exact .fn (hI.inst hs (.inr rfl))
    · cases h
  | .abs params body, ρ, Γ, exp, n, o, hp, ht, h => by
    simp only [infer] at h
    split at h
    · cases h
    · next hr =>
      simp only [Option.bind_eq_bind, Option.bind_eq_some_iff] at h
      obtain ⟨ob, hb, h⟩ := h
      obtain rfl := (Option.some.inj h)
      obtain ⟨k1, k2, k3, k4⟩ := closureTys_ok hp.strict ht hr
      generalize closureTys (expectedFn exp) params n = q at hb k1 k2 k3 k4
      have ih := infer_good body ⟨hp.strict, (hp.mono k1).sigs, k3, enter_ok k2 (captured_ok (hp.mono k1).locals)⟩
        (fun t ht => by cases ht; exact k3) hb
      have hok : OkTy ob.next (fnTy q.1 q.2.1) := okTy_fn.2 ⟨fun t ht => (k2 t ht).mono ih.le, k3.mono ih.le⟩
      refine Good.expect ?_ ht
      refine ⟨le_trans k1 ih.le, .inr hok, ih.eqs, ?_⟩
      intro θ I hs hI τ hτ
      rcases hτ with hτ | hτ
      · exact absurd hτ hok.ne_never
      · subst hτ
        dsimp only
        rw [fnTy_subst]
        refine .abs (by rw [List.length_map, k4]) ?_
        have := ih.typed θ I hs hI _ (infer_checked hb hs)
        rw [enter_eq, captured_eq] at this
        rw [without_sub, bindParams_sub]
        exact this
  | .app callee args, ρ, Γ, exp, n, o, hp, ht, h => by
    simp only [infer, Option.bind_eq_bind, Option.bind_eq_some_iff] at h
    obtain ⟨f, hf, h⟩ := h
    have gf := infer_good callee hp (by simp) hf
    split at h
    · next hn =>
      obtain rfl := (Option.some.inj h)
      refine Good.expect ?_ ht
      refine ⟨gf.le, gf.ty, gf.eqs, ?_⟩
      intro θ I hs hI τ _
      exact .appCallee (gf.two hn hs hI).1 (gf.two hn hs hI).2
    · next hn =>
      simp only [Option.bind_eq_some_iff] at h
      obtain ⟨a, ha, h⟩ := h
      have ga := inferAll_good args (hp.mono gf.le) (by simp) ha
      have hfty : OkTy f.next f.ty := gf.ty.resolve_left hn
      split at h
      · next hd =>
        obtain rfl := (Option.some.inj h)
        refine Good.expect ?_ ht
        refine ⟨le_trans gf.le ga.le, .inl rfl, ?_, ?_⟩
        · intro q hq
          rcases List.mem_append.1 hq with hq | hq
          · exact (gf.eqs q hq).mono ga.le
          · exact ga.eqs q hq
        · intro θ I hs hI τ _
          exact .appArgs (gf.typed θ I hs.left hI _ (.inr rfl)) (ga.diverge hd θ I hs.right hI)
      · next hd =>
        obtain rfl := (Option.some.inj h)
        have hd : a.diverges = false := by simpa using hd
        have hfn : OkTy (a.next + 1) (fnTy a.tys (.var a.next)) :=
          okTy_fn.2 ⟨fun t ht => (ga.tys hd t ht).mono (by omega), .var (by omega)⟩
        refine Good.expect ?_ ht
        refine ⟨le_trans gf.le (le_trans ga.le (Nat.le_succ _)), .inr (.var (Nat.lt_succ_self _)), ?_, ?_⟩
        · intro q hq
          rcases List.mem_append.1 hq with hq | hq
          · rcases List.mem_append.1 hq with hq | hq
            · exact (gf.eqs q hq).mono (le_trans ga.le (Nat.le_succ _))
            · exact (ga.eqs q hq).mono (Nat.le_succ _)
          · exact equate_ok (.inr (hfty.mono (le_trans ga.le (Nat.le_succ _)))) hfn q hq
        · intro θ I hs hI τ hτ
          rcases hτ with hτ | hτ
          · cases hτ
          · have h1 := hs.right.equate.resolve_left hn
            rw [fnTy_subst] at h1
            have h2 := gf.typed θ I hs.left.left hI _ (.inr h1)
            rw [show (Ty.var a.next).subst θ = τ from hτ] at h2
            exact .app h2 (ga.typed hd θ I hs.left.right hI)
  | .call f args, ρ, Γ, exp, n, o, hp, ht, h => by
    simp only [infer, Option.bind_eq_bind, Option.bind_eq_some_iff] at h
    obtain ⟨s, hs, h⟩ := h
    split at h
    · cases h
    · next hlen =>
      split at h
      · cases h
      · next hcall =>
        simp only [Option.bind_eq_some_iff] at h
        obtain ⟨a, ha, h⟩ := h
        have hsig := hp.sigs f s hs
        simp only [Ctx.callable, hp.strict, Bool.not_true, Bool.false_or, Bool.not_not, Bool.not_eq_true, Bool.or_eq_false_iff,
          List.any_eq_false, Bool.and_eq_false_iff, bne_eq_false_iff_eq] at hcall
        obtain ⟨hv1, hv2⟩ := hcall
        have hargs : ∀ t ∈ s.args.map (·.subst (s.fresh n)), OkTy (n + s.vars.length) t := by
          intro t ht
          obtain ⟨t', ht', rfl⟩ := List.mem_map.1 ht
          exact okTy_inst hsig (.inl ht') ((mentionsNever_iff _).1 (by simpa using hv2 t' ht'))
        have ga := inferAll_good args (hp.mono (Nat.le_add_right _ _)) (fun ts h => by cases h; exact hargs) ha
        have hle : n ≤ a.next := le_trans (Nat.le_add_right _ _) ga.le
        split at h
        · next hd =>
          obtain rfl := (Option.some.inj h)
          refine Good.expect ?_ ht
          exact ⟨hle, .inl rfl, ga.eqs, fun θ I hs hI τ _ => .callArgs (ga.diverge hd θ I hs hI)⟩
        · next hd =>
          obtain rfl := (Option.some.inj h)
          have hd : a.diverges = false := by simpa using hd
          refine Good.expect ?_ ht
          refine ⟨hle, ?_, ga.eqs, ?_⟩
          · rcases hv1 with hv1 | hv1
            · left
              show s.ret.subst (s.fresh n) = .never
              rw [hv1, Unify.Ty.subst]
            · exact .inr ((okTy_inst hsig (.inr rfl) ((mentionsNever_iff _).1 hv1)).mono ga.le)
          · intro θ I hsat hI τ hτ
            have h1 := ga.typed hd θ I hsat hI
            rw [ga.expected _ rfl (by simpa using hlen) hd θ hsat] at h1
            refine .call (hI.inst hs ?_) h1
            rcases hτ with hτ | hτ
            · exact .inl (subst_never hτ)
            · exact .inr hτ.symm
  | .block body, ρ, Γ, exp, n, o, hp, ht, h => by
    simp only [infer, Option.map_eq_some_iff] at h
    obtain ⟨r, hr, rfl⟩ := h
    have g := inferStmts_good body hp okTy_unit hr
    refine Good.expect ?_ ht
    refine ⟨g.le, g.ty, g.eqs, fun θ I hs hI τ hτ => .block ?_⟩
    have := g.typed θ I hs hI τ hτ
    rw [unit_subst] at this
    exact this
  | .assign x value, ρ, Γ, exp, n, o, hp, ht, h => by
    simp only [infer, Option.bind_eq_bind, Option.bind_eq_some_iff] at h
    obtain ⟨l, hl, h⟩ := h
    split at h
    · cases h
    · next hm =>
      simp only [Option.bind_eq_some_iff] at h
      obtain ⟨v, hv, h⟩ := h
      obtain rfl := (Option.some.inj h)
      have g := infer_good value hp (by simp) hv
      obtain ⟨b, hb, hbl⟩ := find_mem hl
      have hok : OkTy n l.2 := by rw [← hbl]; exact hp.locals b hb
      refine Good.expect ?_ ht
      refine ⟨g.le, ?_, ?_, ?_⟩
      · by_cases hn : v.ty = .never
        · left; exact if_pos hn
        · right; dsimp only; rw [if_neg hn]; exact okTy_unit
      · intro q hq
        rcases List.mem_append.1 hq with hq | hq
        · exact g.eqs q hq
        · exact equate_ok g.ty (hok.mono g.le) q hq
      · intro θ I hs hI τ hτ
        by_cases hn : v.ty = .never
        · exact .assignValue (g.two hn hs.left hI).1 (g.two hn hs.left hI).2
        · dsimp only at hτ
          rw [if_neg hn] at hτ
          rcases hτ with hτ | hτ
          · cases hτ
          · rw [unit_subst] at hτ
            subst hτ
            rw [find_eq] at hl
            have hl' : lookup x Γ = some (true, l.2) := by
              rw [hl]
              have : l.1 = true := by simpa using hm
              rw [← this]
            exact .assign (lookup_sub hl') (g.typed θ I hs.left hI _ (.inr (hs.right.equate.resolve_left hn)))
  | .tuple items, ρ, Γ, exp, n, o, hp, ht, h => by
    simp only [infer, Option.bind_eq_bind, Option.bind_eq_some_iff] at h
    obtain ⟨a, ha, h⟩ := h
    obtain rfl := (Option.some.inj h)
    have ga := inferAll_good items hp (by simp) ha
    cases hd : a.diverges with
    | true =>
      refine Good.expect ?_ ht
      exact ⟨ga.le, .inl (by simp), ga.eqs, fun θ I hs hI τ _ => .tupleItems (ga.diverge hd θ I hs hI)⟩
    | false =>
      refine Good.expect ?_ ht
      refine ⟨ga.le, .inr ?_, ga.eqs, ?_⟩
      · simp only [Bool.false_eq_true, if_false]
        exact okTy_tuple.2 (ga.tys hd)
      · intro θ I hs hI τ hτ
        simp only [Bool.false_eq_true, if_false] at hτ
        rcases hτ with hτ | hτ
        · cases hτ
        · subst hτ
          rw [tupleTy_subst]
          exact .tuple (ga.typed hd θ I hs hI)
  | .ite cond yes no, ρ, Γ, exp, n, o, hp, ht, h => by
    simp only [infer, Option.bind_eq_bind, Option.bind_eq_some_iff] at h
    obtain ⟨b, hb, h⟩ := h
    have gb := infer_good cond hp (by simp) hb
    split at h
    · next hn =>
      obtain rfl := (Option.some.inj h)
      refine Good.expect ?_ ht
      refine ⟨gb.le, gb.ty, gb.eqs, ?_⟩
      intro θ I hs hI τ _
      exact .iteCond (gb.two hn hs hI).1 (gb.two hn hs hI).2
    · next hn =>
      simp only [Option.bind_eq_some_iff] at h
      obtain ⟨el, hel, th, hth, h⟩ := h
      obtain rfl := (Option.some.inj h)
      have hbt : OkTy b.next b.ty := gb.ty.resolve_left hn
      have ge := infer_good no (hp.mono (le_trans gb.le (Nat.le_succ _))) (fun t h => by cases h; exact .var (Nat.lt_succ_self _)) hel
      have hle : b.next + 1 ≤ el.next := ge.le
      have gt := infer_good yes (hp.mono (le_trans gb.le (le_trans (Nat.le_succ _) ge.le)))
        (fun t h => by cases h; exact .var (by omega)) hth
      have hle' : el.next ≤ th.next := gt.le
      have hv : OkTy th.next (.var b.next) := .var (by omega)
      refine Good.expect ?_ ht
      refine ⟨by have := gb.le; dsimp only; omega, ?_, ?_, ?_⟩
      · dsimp only
        split
        · exact .inl rfl
        · exact .inr hv
      · intro q hq
        simp only [List.mem_append] at hq
        rcases hq with ((((hq | hq) | hq) | hq) | hq) | hq
        · exact (gb.eqs q hq).mono (show b.next ≤ th.next by omega)
        · exact (ge.eqs q hq).mono hle'
        · exact equate_ok (ge.ty.imp id fun h => h.mono hle') hv q hq
        · exact equate_ok (n := th.next) (.inr OkTy.native) (hbt.mono (by omega)) q hq
        · exact gt.eqs q hq
        · exact equate_ok gt.ty hv q hq
      · intro θ I hs hI τ hτ
        have hcond := gb.typed θ I hs.left.left.left.left.left hI bool
          (.inr (by
            have := hs.left.left.right.equate.resolve_left (by simp [bool, native])
            rw [bool_subst] at this
            exact this.symm))
        have te := fun τ => ge.typed θ I hs.left.left.left.left.right hI τ
        have tt := fun τ => gt.typed θ I hs.left.right hI τ
        have ee := hs.left.left.left.right.equate
        have et := hs.right.equate
        by_cases hboth : th.ty = .never ∧ el.ty = .never
        · exact .ite hcond (tt τ (.inl hboth.1)) (te τ (.inl hboth.2))
        · dsimp only at hτ
          rw [if_neg hboth] at hτ
          rcases hτ with hτ | hτ
          · cases hτ
          · rw [hτ] at ee et
            exact .ite hcond (tt τ et) (te τ ee)
  | .ret value, ρ, Γ, exp, n, o, hp, ht, h => by
    simp only [infer, Option.bind_eq_bind, Option.bind_eq_some_iff] at h
    obtain ⟨v, hv, h⟩ := h
    obtain rfl := (Option.some.inj h)
    have g := infer_good value hp (by simp) hv
    refine Good.expect ?_ ht
    refine ⟨g.le, .inl rfl, ?_, ?_⟩
    · intro q hq
      rcases List.mem_append.1 hq with hq | hq
      · exact g.eqs q hq
      · exact equate_ok g.ty (hp.ret.mono g.le) q hq
    · intro θ I hs hI τ _
      exact .ret (g.typed θ I hs.left hI _ hs.right.equate)

theorem inferAll_good : ∀ (es : Exprs) {ρ : Ty} {Γ : Locals} {exp : Option (List Ty)} {n : Nat} {o : Outs}, Pre c ρ Γ n →
    (∀ ts, exp = some ts → ∀ t ∈ ts, OkTy n t) → inferAll c ρ Γ exp n es = some o → GoodAll c ρ Γ exp es n o
  | .nil, ρ, Γ, exp, n, o, hp, ht, h => by
    simp only [inferAll, Option.some.injEq] at h
    subst h
    refine ⟨le_rfl, by simp, by simp, by simp, fun _ θ I _ _ => .nil, ?_⟩
    intro ts _ hl _ θ _
    rw [Exprs.length, List.length_eq_zero_iff] at hl
    rw [hl]
  | .cons e rest, ρ, Γ, exp, n, o, hp, ht, h => by
    simp only [inferAll, Option.bind_eq_bind, Option.bind_eq_some_iff] at h
    obtain ⟨v, hv, h⟩ := h
    have g := infer_good e hp (fun t h => by
      cases exp with
      | none => cases h
      | some ts =>
        cases ts with
        | nil => cases h
        | cons t' ts => cases h; exact ht _ rfl _ (by simp)) hv
    split at h
    · next hn =>
      obtain rfl := (Option.some.inj h)
      refine ⟨g.le, by simp, g.eqs, fun _ θ I hs hI => .here (g.two hn hs hI).1 (g.two hn hs hI).2, by simp, by simp⟩
    · next hn =>
      simp only [Option.bind_eq_some_iff] at h
      obtain ⟨r, hr, h⟩ := h
      obtain rfl := (Option.some.inj h)
      have gr := inferAll_good rest (hp.mono g.le) (fun ts h t hts => by
        cases exp with
        | none => cases h
        | some ts' =>
          cases h
          exact (ht _ rfl _ (List.mem_of_mem_tail hts)).mono g.le) hr
      refine ⟨le_trans g.le gr.le, ?_, ?_, ?_, ?_, ?_⟩
      · intro hd t ht
        rcases List.mem_cons.1 ht with rfl | ht
        · exact (g.ty.resolve_left hn).mono gr.le
        · exact gr.tys hd t ht
      · intro q hq
        rcases List.mem_append.1 hq with hq | hq
        · exact (g.eqs q hq).mono gr.le
        · exact gr.eqs q hq
      · exact fun hd θ I hs hI => .later (g.typed θ I hs.left hI _ (.inr rfl)) (gr.diverge hd θ I hs.right hI)
      · exact fun hd θ I hs hI => .cons (g.typed θ I hs.left hI _ (.inr rfl)) (gr.typed hd θ I hs.right hI)
      · intro ts hts hl hd θ hs
        subst hts
        cases ts with
        | nil => simp [Exprs.length] at hl
        | cons t ts =>
          simp only [List.map_cons, List.cons.injEq]
          refine ⟨?_, gr.expected ts rfl (by simpa [Exprs.length] using hl) hd θ hs.right⟩
          exact (infer_checked hv hs.left).resolve_left hn

theorem inferStmts_good : ∀ (s : Stmts) {ρ : Ty} {Γ : Locals} {last : Ty} {n : Nat} {o : Out}, Pre c ρ Γ n →
    OkTy n last → inferStmts c ρ Γ last n s = some o → GoodStmts c ρ Γ last s n o
  | .nil, ρ, Γ, last, n, o, hp, ht, h => by
    simp only [inferStmts, Option.some.injEq] at h
    subst h
    refine ⟨le_rfl, .inr ht, by simp, ?_⟩
    intro θ I _ _ τ hτ
    rcases hτ with hτ | hτ
    · exact absurd hτ ht.ne_never
    · subst hτ
      exact .nil
  | .bind x m e rest, ρ, Γ, last, n, o, hp, ht, h => by
    simp only [inferStmts, Option.bind_eq_bind, Option.bind_eq_some_iff] at h
    obtain ⟨v, hv, h⟩ := h
    have g := infer_good e hp (by simp) hv
    split at h
    · next hn =>
      obtain rfl := (Option.some.inj h)
      exact ⟨g.le, g.ty, g.eqs, fun θ I hs hI τ _ => .bindValue (g.two hn hs hI).1 (g.two hn hs hI).2⟩
    · next hn =>
      simp only [Option.bind_eq_some_iff] at h
      obtain ⟨r, hr, h⟩ := h
      obtain rfl := (Option.some.inj h)
      have hp' := hp.mono g.le
      have gr := inferStmts_good rest ⟨hp'.strict, hp'.sigs, hp'.ret, fun b hb => by
        rcases List.mem_cons.1 hb with rfl | hb
        · exact g.ty.resolve_left hn
        · exact hp'.locals b hb⟩ okTy_unit hr
      refine ⟨le_trans g.le gr.le, gr.ty, ?_, ?_⟩
      · intro q hq
        rcases List.mem_append.1 hq with hq | hq
        · exact (g.eqs q hq).mono gr.le
        · exact gr.eqs q hq
      · intro θ I hs hI τ hτ
        have := gr.typed θ I hs.right hI τ hτ
        rw [unit_subst] at this
        exact .bind (g.typed θ I hs.left hI _ (.inr rfl)) this
  | .expr e rest, ρ, Γ, last, n, o, hp, ht, h => by
    simp only [inferStmts, Option.bind_eq_bind, Option.bind_eq_some_iff] at h
    obtain ⟨v, hv, h⟩ := h
    have g := infer_good e hp (by simp) hv
    split at h
    · next hn =>
      obtain rfl := (Option.some.inj h)
      exact ⟨g.le, g.ty, g.eqs, fun θ I hs hI τ _ => .exprValue (g.two hn hs hI).1 (g.two hn hs hI).2⟩
    · next hn =>
      simp only [Option.bind_eq_some_iff] at h
      obtain ⟨r, hr, h⟩ := h
      obtain rfl := (Option.some.inj h)
      have gr := inferStmts_good rest (hp.mono g.le) (g.ty.resolve_left hn) hr
      refine ⟨le_trans g.le gr.le, gr.ty, ?_, ?_⟩
      · intro q hq
        rcases List.mem_append.1 hq with hq | hq
        · exact (g.eqs q hq).mono gr.le
        · exact gr.eqs q hq
      · intro θ I hs hI τ hτ
        exact .expr (g.typed θ I hs.left hI _ (.inr rfl)) (gr.typed θ I hs.right hI τ hτ)

end

end Ferlium.TypeInfer
