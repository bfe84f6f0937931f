import Verif.Proofs.TypeRun
import Verif.Props.Unify

/-!
Typing of the core language under substitution of types.
-/
namespace Ferlium.TypeInfer

open Unify (Ty Args Head Table)

/-- A substitution in the types of the local variables. -/
def sub (σ : Nat → Ty) (Γ : Locals) : Locals := Γ.map fun b => (b.1, b.2.1, b.2.2.subst σ)

theorem find_eq (x : Name) : ∀ l : List (Name × α), find x l = lookup x l
  | [] => rfl
  | (y, a) :: rest => by
    simp only [find, lookup, find_eq x rest]
    by_cases h : x = y
    · rw [if_pos h, if_pos h.symm]
    · rw [if_neg h, if_neg (Ne.symm h)]

theorem enter_eq : ∀ (params : List Name) (as : List α) (outer : List (Name × α)), enter params as outer = bindParams params as outer
  | [], as, outer => by simp [enter, bindParams]
  | x :: xs, [], outer => by simp [enter, bindParams]
  | x :: xs, a :: as, outer => by
    rw [bindParams, ← enter_eq xs as]
    simp [enter]

theorem captured_eq (params : List Name) : ∀ l : List (Name × α), captured params l = without params l
  | [] => rfl
  | (y, a) :: rest => by
    have ih := captured_eq params rest
    simp only [captured] at ih
    simp only [captured, without, List.filter_cons, ih]
    by_cases h : y ∈ params <;> simp [h]

variable {σ : Nat → Ty}

theorem lookup_sub {x : Name} {m : Bool} {τ : Ty} : ∀ {Γ : Locals}, lookup x Γ = some (m, τ) → lookup x (sub σ Γ) = some (m, τ.subst σ)
  | [], h => by simp [lookup] at h
  | (y, m', t) :: rest, h => by
    simp only [sub, List.map_cons, lookup] at h ⊢
    by_cases hx : y = x
    · rw [if_pos hx] at h ⊢; cases h; rfl
    · rw [if_neg hx] at h ⊢; exact lookup_sub h

theorem without_sub (params : List Name) : ∀ Γ : Locals, without params (sub σ Γ) = sub σ (without params Γ)
  | [] => rfl
  | (y, m, t) :: rest => by
    have ih := without_sub params rest
    simp only [sub, List.map_cons, without] at ih ⊢
    by_cases hy : y ∈ params
    · rw [if_pos hy, if_pos hy, ih]
    · rw [if_neg hy, if_neg hy, ih]; rfl

theorem bindParams_sub : ∀ (params : List Name) (ts : List Ty) (Γ : Locals),
    bindParams params (paramTys (ts.map (·.subst σ))) (sub σ Γ) = sub σ (bindParams params (paramTys ts) Γ)
  | [], ts, Γ => by cases ts <;> rfl
  | x :: xs, [], Γ => rfl
  | x :: xs, t :: ts, Γ => bindParams_sub xs ts ((x, false, t) :: Γ)

theorem sub_var (Γ : Locals) : sub Ty.var Γ = Γ := by
  simp [sub, Unify.Ty.subst_var]

theorem parts_subst : ∀ ts : List Ty, (parts ts).subst σ = parts (ts.map (·.subst σ))
  | [] => by simp [parts, Unify.Args.subst]
  | t :: ts => by simp [parts, Unify.Args.subst, parts_subst ts]

theorem fnTy_subst (args : List Ty) (r : Ty) : (fnTy args r).subst σ = fnTy (args.map (·.subst σ)) (r.subst σ) := by
  simp [fnTy, Unify.Ty.subst, parts_subst]

theorem tupleTy_subst (ts : List Ty) : (tupleTy ts).subst σ = tupleTy (ts.map (·.subst σ)) := by
  simp [tupleTy, Unify.Ty.subst, parts_subst]

theorem native_subst (k : Nat) : (native k).subst σ = native k := by
  simp [native, Unify.Ty.subst, Unify.Args.subst]

theorem bool_subst : bool.subst σ = bool := native_subst 0

theorem unit_subst : unit.subst σ = unit := tupleTy_subst []

variable {I I' : Insts}

mutual

theorem HasTy.subst (hI : ∀ f args r, I f args r → I' f (args.map (·.subst σ)) (r.subst σ)) : ∀ {ρ Γ e τ}, HasTy I ρ Γ e τ →
    HasTy I' (ρ.subst σ) (sub σ Γ) e (τ.subst σ)
  | _, _, _, _, .lit => by rw [native_subst]; exact .lit
  | _, _, _, _, .local h => .local (lookup_sub h)
  | _, _, _, _, .fn h => by rw [fnTy_subst]; exact .fn (hI _ _ _ h)
  | _, _, _, _, .abs hl h => by
    rw [fnTy_subst]
    refine .abs (by rw [hl, List.length_map]) ?_
    rw [without_sub, bindParams_sub]
    exact h.subst hI
  | _, _, _, _, .app h hs => .app (by rw [← fnTy_subst]; exact h.subst hI) (hs.subst hI)
  | _, _, _, _, .appCallee h0 h1 => .appCallee (by simpa only [native_subst] using h0.subst hI) (by simpa only [native_subst] using h1.subst hI)
  | _, _, _, _, .appArgs h hd => .appArgs (h.subst hI) (hd.subst hI)
  | _, _, _, _, .call h hs => .call (hI _ _ _ h) (hs.subst hI)
  | _, _, _, _, .callArgs hd => .callArgs (hd.subst hI)
  | _, _, _, _, .block h => .block (by simpa only [unit_subst] using h.subst hI)
  | _, _, _, _, .assign hx h => by rw [unit_subst]; exact .assign (lookup_sub hx) (h.subst hI)
  | _, _, _, _, .assignValue h0 h1 => .assignValue (by simpa only [native_subst] using h0.subst hI) (by simpa only [native_subst] using h1.subst hI)
  | _, _, _, _, .tuple hs => by rw [tupleTy_subst]; exact .tuple (hs.subst hI)
  | _, _, _, _, .tupleItems hd => .tupleItems (hd.subst hI)
  | _, _, _, _, .ite hc ha hb => .ite (by simpa only [bool_subst] using hc.subst hI) (ha.subst hI) (hb.subst hI)
  | _, _, _, _, .iteCond h0 h1 => .iteCond (by simpa only [native_subst] using h0.subst hI) (by simpa only [native_subst] using h1.subst hI)
  | _, _, _, _, .ret h => .ret (h.subst hI)

theorem HasTys.subst (hI : ∀ f args r, I f args r → I' f (args.map (·.subst σ)) (r.subst σ)) : ∀ {ρ Γ es ts}, HasTys I ρ Γ es ts →
    HasTys I' (ρ.subst σ) (sub σ Γ) es (ts.map (·.subst σ))
  | _, _, _, _, .nil => .nil
  | _, _, _, _, .cons h hs => .cons (h.subst hI) (hs.subst hI)

theorem Diverge.subst (hI : ∀ f args r, I f args r → I' f (args.map (·.subst σ)) (r.subst σ)) : ∀ {ρ Γ es}, Diverge I ρ Γ es →
    Diverge I' (ρ.subst σ) (sub σ Γ) es
  | _, _, _, .here h0 h1 => .here (by simpa only [native_subst] using h0.subst hI) (by simpa only [native_subst] using h1.subst hI)
  | _, _, _, .later h hd => .later (h.subst hI) (hd.subst hI)

theorem StmtsTy.subst (hI : ∀ f args r, I f args r → I' f (args.map (·.subst σ)) (r.subst σ)) : ∀ {ρ Γ last s τ},
    StmtsTy I ρ Γ last s τ → StmtsTy I' (ρ.subst σ) (sub σ Γ) (last.subst σ) s (τ.subst σ)
  | _, _, _, _, _, .nil => .nil
  | _, _, _, _, _, .bind h hs => .bind (h.subst hI) (by have := hs.subst hI; rw [unit_subst] at this; exact this)
  | _, _, _, _, _, .bindValue h0 h1 => .bindValue (by simpa only [native_subst] using h0.subst hI) (by simpa only [native_subst] using h1.subst hI)
  | _, _, _, _, _, .expr h hs => .expr (h.subst hI) (hs.subst hI)
  | _, _, _, _, _, .exprValue h0 h1 => .exprValue (by simpa only [native_subst] using h0.subst hI) (by simpa only [native_subst] using h1.subst hI)

end

theorem HasTy.mono (hI : ∀ f args r, I f args r → I' f args r) {ρ : Ty} {Γ : Locals} {e : Expr} {τ : Ty} (h : HasTy I ρ Γ e τ) :
    HasTy I' ρ Γ e τ := by
  have := h.subst (σ := Ty.var) (I' := I') fun f args r hf => by simpa [Unify.Ty.subst_var] using hI f args r hf
  simpa only [Unify.Ty.subst_var, sub_var] using this

/-- The types made by inference: native types without parts, and no names of parts. -/
def sorts : Head → List (Option Nat) → Prop
  | .native _, ns => ns = []
  | .tuple, ns => ∀ n ∈ ns, n = none
  | .function, ns => ∀ n ∈ ns, n = none
  | _, _ => False

theorem sorts_tidy : Unify.Tidy sorts where
  named := by intro k ns ms h; exact h.elim
  native := by intro k ns ms h h'; simp only [sorts] at h h'; rw [h, h']
  positional := by
    intro h ns hc hs n hn
    cases h with
    | native k => simp only [sorts] at hs; subst hs; cases hn
    | named k => exact hs.elim
    | tuple => exact hs n hn
    | function => exact hs n hn
    | variant => cases hc
    | record => cases hc
  records := by intro ns ms h; exact h.elim

/-- A type with variables below `n`, well-made and without `never`. -/
structure OkTy (n : Nat) (t : Ty) : Prop where
  below : ∀ v, t.contains v = true → v < n
  sorted : t.Sorted sorts
  real : t.NoNever

theorem OkTy.mono {m n : Nat} {t : Ty} (h : OkTy m t) (hmn : m ≤ n) : OkTy n t :=
  ⟨fun v hv => lt_of_lt_of_le (h.below v hv) hmn, h.sorted, h.real⟩

theorem OkTy.ne_never {n : Nat} {t : Ty} (h : OkTy n t) : t ≠ .never := by
  rintro rfl
  have := h.real
  simp [Unify.Ty.NoNever] at this

theorem OkTy.var {n v : Nat} (h : v < n) : OkTy n (.var v) :=
  ⟨fun w hw => by simp [Unify.Ty.contains] at hw; omega, by simp [Unify.Ty.Sorted], by simp [Unify.Ty.NoNever]⟩

theorem OkTy.native {n k : Nat} : OkTy n (native k) :=
  ⟨fun w hw => by simp [TypeInfer.native, Unify.Ty.contains, Unify.Args.contains] at hw,
    by simp [TypeInfer.native, Unify.Ty.Sorted, Unify.Args.Sorted, Unify.Args.names, sorts],
    by simp [TypeInfer.native, Unify.Ty.NoNever, Unify.Args.NoNever]⟩

theorem parts_names : ∀ ts : List Ty, ∀ n ∈ (parts ts).names, n = none
  | [], n, h => by simp [parts, Unify.Args.names] at h
  | t :: ts, n, h => by
    simp only [parts, Unify.Args.names, List.mem_cons] at h
    rcases h with h | h
    · exact h
    · exact parts_names ts n h

theorem parts_contains (v : Nat) : ∀ ts : List Ty, (parts ts).contains v = true ↔ ∃ t ∈ ts, t.contains v = true
  | [] => by simp [parts, Unify.Args.contains]
  | t :: ts => by simp [parts, Unify.Args.contains, parts_contains v ts]

theorem parts_sorted {S : Head → List (Option Nat) → Prop} : ∀ ts : List Ty, (parts ts).Sorted S ↔ ∀ t ∈ ts, t.Sorted S
  | [] => by simp [parts, Unify.Args.Sorted]
  | t :: ts => by simp [parts, Unify.Args.Sorted, parts_sorted ts]

theorem parts_noNever : ∀ ts : List Ty, (parts ts).NoNever ↔ ∀ t ∈ ts, t.NoNever
  | [] => by simp [parts, Unify.Args.NoNever]
  | t :: ts => by simp [parts, Unify.Args.NoNever, parts_noNever ts]

theorem okTy_parts {n : Nat} {h : Head} (hh : h = .tuple ∨ h = .function) {ts : List Ty} :
    OkTy n (.node h (parts ts)) ↔ ∀ t ∈ ts, OkTy n t := by
  have hs : sorts h (parts ts).names := by rcases hh with rfl | rfl <;> exact parts_names ts
  constructor
  · intro ⟨h1, h2, h3⟩ t ht
    simp only [Unify.Ty.contains, Unify.Ty.Sorted, Unify.Ty.NoNever, parts_contains, parts_sorted, parts_noNever] at h1 h2 h3
    exact ⟨fun v hv => h1 v ⟨t, ht, hv⟩, h2.2 t ht, h3 t ht⟩
  · intro H
    refine ⟨?_, ?_, ?_⟩ <;> simp only [Unify.Ty.contains, Unify.Ty.Sorted, Unify.Ty.NoNever, parts_contains, parts_sorted, parts_noNever]
    · rintro v ⟨t, ht, hv⟩; exact (H t ht).below v hv
    · exact ⟨hs, fun t ht => (H t ht).sorted⟩
    · exact fun t ht => (H t ht).real

theorem okTy_fn {n : Nat} {args : List Ty} {r : Ty} : OkTy n (fnTy args r) ↔ (∀ t ∈ args, OkTy n t) ∧ OkTy n r := by
  rw [fnTy, okTy_parts (.inr rfl)]
  simp [or_imp, forall_and]

theorem okTy_tuple {n : Nat} {ts : List Ty} : OkTy n (tupleTy ts) ↔ ∀ t ∈ ts, OkTy n t := okTy_parts (.inl rfl)

theorem okTy_unit {n : Nat} : OkTy n unit := okTy_tuple.2 (by simp)

theorem splitFn_parts : ∀ (a : Args) (args : List Ty) (r : Ty), splitFn a = some (args, r) → (∀ n ∈ a.names, n = none) →
    a = parts (args ++ [r])
  | .nil, _, _, h, _ => by simp [splitFn] at h
  | .cons name t rest, args, r, h, hn => by
    simp only [Unify.Args.names, List.mem_cons, forall_eq_or_imp] at hn
    obtain ⟨rfl, hn⟩ := hn
    simp only [splitFn] at h
    by_cases hr : rest = .nil
    · rw [if_pos hr] at h
      cases h
      rw [hr]
      rfl
    · rw [if_neg hr] at h
      cases hs : splitFn rest with
      | none => rw [hs] at h; cases h
      | some q =>
        rw [hs] at h
        cases h
        rw [splitFn_parts rest q.1 q.2 hs hn]
        rfl

theorem expectedFn_eq {n : Nat} {t : Ty} {args : List Ty} {r : Ty} (h : expectedFn (some t) = some (args, r)) (ht : OkTy n t) :
    t = fnTy args r := by
  cases t with
  | never => simp [expectedFn] at h
  | var => simp [expectedFn] at h
  | node hd a =>
    cases hd with
    | function =>
      simp only [expectedFn] at h
      have := ht.sorted
      rw [Unify.Ty.Sorted] at this
      rw [fnTy, splitFn_parts a args r h this.1]
    | _ => simp [expectedFn] at h

mutual

theorem mentionsNever_iff : ∀ t : Ty, mentionsNever t = false ↔ t.NoNever
  | .never => by simp [mentionsNever, Unify.Ty.NoNever]
  | .var _ => by simp [mentionsNever, Unify.Ty.NoNever]
  | .node _ args => by rw [mentionsNever, Unify.Ty.NoNever]; exact partsMentionNever_iff args

theorem partsMentionNever_iff : ∀ a : Args, partsMentionNever a = false ↔ a.NoNever
  | .nil => by simp [partsMentionNever, Unify.Args.NoNever]
  | .cons _ t rest => by
    rw [partsMentionNever, Unify.Args.NoNever, Bool.or_eq_false_iff, mentionsNever_iff t, partsMentionNever_iff rest]

end

mutual

theorem noNever_subst {ρ : Nat → Ty} : ∀ t : Ty, t.NoNever → (∀ v, t.contains v = true → (ρ v).NoNever) → (t.subst ρ).NoNever
  | .never, h, _ => by rw [Unify.Ty.NoNever] at h; exact h.elim
  | .var v, _, h => by rw [Unify.Ty.subst]; exact h v (by simp [Unify.Ty.contains])
  | .node _ args, h, hρ => by
    rw [Unify.Ty.NoNever] at h
    rw [Unify.Ty.subst, Unify.Ty.NoNever]
    exact noNever_substArgs args h fun v hv => hρ v (by simpa [Unify.Ty.contains] using hv)

theorem noNever_substArgs {ρ : Nat → Ty} : ∀ a : Args, a.NoNever → (∀ v, a.contains v = true → (ρ v).NoNever) → (a.subst ρ).NoNever
  | .nil, _, _ => by rw [Unify.Args.subst, Unify.Args.NoNever]; trivial
  | .cons _ t rest, h, hρ => by
    rw [Unify.Args.NoNever] at h
    rw [Unify.Args.subst, Unify.Args.NoNever]
    exact ⟨noNever_subst t h.1 fun v hv => hρ v (by simp [Unify.Args.contains, hv]),
      noNever_substArgs rest h.2 fun v hv => hρ v (by simp [Unify.Args.contains, hv])⟩

end

end Ferlium.TypeInfer
