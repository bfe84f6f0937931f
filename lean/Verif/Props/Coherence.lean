import Verif.Proofs.Coherence

/-!
C64: at most one implementation applies.  C65: the check for overlapping implementations always gives an answer.
-/
namespace Ferlium.Coherence
open Ferlium.Unify

variable {S : Head → List (Option Nat) → Prop} {derived : Nat → List Ty → List Ty → Prop}

theorem declare_pairs {env : List Impl → Env} {fuel : Nat} : ∀ (l known : List Impl), declare env fuel known l = some .disjoint →
    ∀ (j : Nat) (b : Impl), l[j]? = some b → ∀ a ∈ (env (known ++ l.take j)).impls, a.trait = b.trait →
      implsOverlap (env (known ++ l.take j)) fuel b a = some .disjoint
  | [], _, _, j, b, hb, _, _, _ => by simp at hb
  | new :: rest, known, h, j, b, hb, a, ha, hab => by
    rw [declare] at h
    cases hc : checkImpl (env known) fuel new with
    | none => rw [hc] at h; cases h
    | some r =>
      rw [hc] at h
      cases r with
      | overlap => cases h
      | panic => cases h
      | disjoint =>
        simp only at h
        cases j with
        | zero =>
          simp only [List.getElem?_cons_zero, Option.some.injEq] at hb
          subst hb
          simp only [List.take_zero, List.append_nil] at ha ⊢
          exact firstOther_disjoint hc a (by simp [ha, hab])
        | succ j =>
          rw [List.getElem?_cons_succ] at hb
          have he : known ++ (new :: rest).take (j + 1) = (known ++ [new]) ++ rest.take j := by simp
          rw [he] at ha ⊢
          exact declare_pairs rest (known ++ [new]) h j b hb a ha hab

/-- C64, the part which holds: when a module's implementations are accepted one after the other, no two of them apply to the
same types with the same outputs, as far as the implementations known when the later one was accepted make its constraints
true.  Missing: the same inputs with other outputs, and constraints which become true later. -/
theorem C64_at_most_one_partial (hS : FixedArity S) (env : List Impl → Env) (hin : ∀ known, ∀ i ∈ known, i ∈ (env known).impls)
    (hok : ∀ known, (∀ i ∈ known, ImplOk S i) → ∀ i ∈ (env known).impls, ImplOk S i) (l : List Impl) (hl : ∀ i ∈ l, ImplOk S i)
    (he : ∀ j, Trusted (env (l.take j)) derived) (fuel : Nat) (h : declare env fuel [] l = some .disjoint) (i j : Nat) (hij : i < j)
    (a b : Impl) (ha : l[i]? = some a) (hb : l[j]? = some b) (hab : a.trait = b.trait) (ins outs : List Ty) :
    ¬ (Applies (env (l.take j)).impls derived a ins outs ∧ Applies (env (l.take j)).impls derived b ins outs) := by
  have hmem : a ∈ l.take j := by
    obtain ⟨h1, h2⟩ := List.getElem?_eq_some_iff.1 ha
    rw [← h2]
    exact List.mem_take_iff_getElem.2 ⟨i, by omega, by simp⟩
  have hov := declare_pairs l [] h j b hb a (by simpa using hin _ a hmem) hab
  rw [List.nil_append] at hov
  have := implsOverlap_sound hS (he j) (hok _ fun i hi => hl i (List.mem_of_mem_take hi)) fuel (hl b (List.mem_of_getElem? hb))
    (hl a (List.mem_of_getElem? ha)) hov ins outs
  exact fun hc => this hc.symm

/-- C64, without constraints: the same, whatever implementations there are in the end. -/
theorem C64_unconstrained (hS : FixedArity S) (env : List Impl → Env) (hin : ∀ known, ∀ i ∈ known, i ∈ (env known).impls)
    (hok : ∀ known, (∀ i ∈ known, ImplOk S i) → ∀ i ∈ (env known).impls, ImplOk S i) (l : List Impl) (hl : ∀ i ∈ l, ImplOk S i)
    (he : ∀ j, Trusted (env (l.take j)) derived) (fuel : Nat) (h : declare env fuel [] l = some .disjoint) (i j : Nat) (hij : i < j)
    (a b : Impl) (ha : l[i]? = some a) (hb : l[j]? = some b) (hab : a.trait = b.trait) (hca : a.constraints = [])
    (hcb : b.constraints = []) (impls : List Impl) (ins outs : List Ty) :
    ¬ (Applies impls derived a ins outs ∧ Applies impls derived b ins outs) := by
  rintro ⟨⟨ρ, h1, h2, h3, _⟩, ρ', h1', h2', h3', _⟩
  refine C64_at_most_one_partial hS env hin hok l hl he fuel h i j hij a b ha hb hab ins outs ⟨⟨ρ, h1, h2, h3, ?_⟩, ρ', h1', h2', h3', ?_⟩
  · rw [hca]; intro t c c' hm; cases hm
  · rw [hcb]; intro t c c' hm; cases hm

/-! ### Types without constraints: the check is exact -/

mutual

theorem noNever_subst {ρ : Nat → Ty} (hρ : ∀ v, (ρ v).NoNever) : ∀ t : Ty, t.NoNever → (t.subst ρ).NoNever
  | .never, h => by rw [Ty.NoNever] at h; exact h.elim
  | .var v, _ => by rw [Ty.subst]; exact hρ v
  | .node _ args, h => by
    rw [Ty.NoNever] at h
    rw [Ty.subst, Ty.NoNever]
    exact noNever_substArgs hρ args h

theorem noNever_substArgs {ρ : Nat → Ty} (hρ : ∀ v, (ρ v).NoNever) : ∀ a : Args, a.NoNever → (a.subst ρ).NoNever
  | .nil, _ => by rw [Args.subst, Args.NoNever]; trivial
  | .cons _ t rest, h => by
    rw [Args.NoNever] at h
    rw [Args.subst, Args.NoNever]
    exact ⟨noNever_subst hρ t h.1, noNever_substArgs hρ rest h.2⟩

end

/-- No value in the table contains `never`. -/
def NoNeverTable (tab : Table) : Prop := ∀ (v : Nat) (t : Ty), tab[v]? = some (some t) → t.NoNever

theorem normalize_noNever {tab : Table} (h : NoNeverTable tab) :
    (∀ t r, Unify.normalize tab t = some r → t.NoNever → r.NoNever) ∧
      ∀ a r, normalizeArgs tab a = some r → a.NoNever → r.NoNever := by
  refine normalize.mutual_partial_correctness tab (fun t r => t.NoNever → r.NoNever) (fun a r => a.NoNever → r.NoNever) ?_ ?_
  · intro f g hf hg t r hr ht
    cases t with
    | never => rw [Ty.NoNever] at ht; exact ht.elim
    | var v =>
      simp only at hr
      split at hr
      · cases hr
      · cases hr; exact ht
      · rename_i u hu
        exact hf _ _ hr (h v u hu)
    | node k args =>
      simp only [Option.bind_eq_bind, Option.bind_eq_some_iff] at hr
      obtain ⟨args', h1, h2⟩ := hr
      cases h2
      rw [Ty.NoNever] at ht ⊢
      exact hg _ _ h1 ht
  · intro f g hf hg a r hr ha
    cases a with
    | nil => cases hr; exact ha
    | cons n t rest =>
      simp only [Option.bind_eq_bind, Option.bind_eq_some_iff] at hr
      obtain ⟨t', h1, rest', h2, h3⟩ := hr
      cases h3
      rw [Args.NoNever] at ha ⊢
      exact ⟨hf _ _ h1 ha.1, hg _ _ h2 ha.2⟩

theorem bind_noNever {tab tab' : Table} {v : Nat} {t : Ty} (h : NoNeverTable tab) (ht : t.NoNever) (hb : Unify.bind tab v t = some tab') :
    NoNeverTable tab' := by
  unfold Unify.bind at hb
  split at hb
  · cases hb
    intro w u hw
    rw [List.getElem?_set] at hw
    split at hw
    · split at hw
      · cases hw; exact ht
      · cases hw
    · exact h w u hw
  · cases hb

theorem unify_noNever (pick : Nat → Nat → Bool) :
    (∀ tab c e r, unify pick tab c e = some r → ∀ tab', r = .ok tab' → NoNeverTable tab → c.NoNever → e.NoNever → NoNeverTable tab') ∧
      ∀ tab h c e r, unifyArgs pick tab h c e = some r → ∀ tab', r = .ok tab' → NoNeverTable tab → c.NoNever → e.NoNever →
        NoNeverTable tab' := by
  refine unify.mutual_partial_correctness pick
    (fun tab c e r => ∀ tab', r = .ok tab' → NoNeverTable tab → c.NoNever → e.NoNever → NoNeverTable tab')
    (fun tab h c e r => ∀ tab', r = .ok tab' → NoNeverTable tab → c.NoNever → e.NoNever → NoNeverTable tab') ?_ ?_
  · intro g hg tab c e r hr tab' hr' ht hc he
    subst hr'
    split at hr
    · cases hr; exact ht
    · simp only [Option.bind_eq_bind, Option.bind_eq_some_iff] at hr
      obtain ⟨c', h1, e', h2, h3⟩ := hr
      have hc' := (normalize_noNever ht).1 _ _ h1 hc
      have he' := (normalize_noNever ht).1 _ _ h2 he
      split at h3
      · cases h3; exact ht
      · split at h3
        · cases h3; exact ht
        · cases h3; exact ht
        · unfold unifyVariables at h3
          split at h3 <;>
          · rw [Option.map_eq_some_iff] at h3
            obtain ⟨t', h4, h5⟩ := h3
            cases h5
            exact bind_noNever ht (by rw [Ty.NoNever]; trivial) h4
        · unfold unifyVariable at h3
          split at h3
          · cases h3
          · rw [Option.map_eq_some_iff] at h3
            obtain ⟨t', h4, h5⟩ := h3
            cases h5
            exact bind_noNever ht he' h4
        · unfold unifyVariable at h3
          split at h3
          · cases h3
          · rw [Option.map_eq_some_iff] at h3
            obtain ⟨t', h4, h5⟩ := h3
            cases h5
            exact bind_noNever ht hc' h4
        · rw [Ty.NoNever] at hc' he'
          split at h3
          · cases h3
          · split at h3
            · cases h3
            · split at h3
              · cases h3
              · exact hg _ _ _ _ _ h3 _ rfl ht hc' he'
  · intro f g hf hg tab h c e r hr tab' hr' ht hc he
    subst hr'
    split at hr
    · rw [Args.NoNever] at hc he
      split at hr
      · cases hr
      · simp only [Option.bind_eq_bind, Option.bind_eq_some_iff] at hr
        obtain ⟨r, h1, h2⟩ := hr
        cases r with
        | error => cases h2
        | ok tab₁ =>
          refine hg _ _ _ _ _ h2 _ rfl ?_ hc.2 he.2
          split at h1
          · exact hf _ _ _ _ h1 _ rfl ht he.1 hc.1
          · exact hf _ _ _ _ h1 _ rfl ht hc.1 he.1
    · cases hr; exact ht

theorem solve_noNever (pick : Nat → Nat → Bool) : ∀ (eqs : List (Ty × Ty)) (tab tab' : Table),
    Unify.solve pick tab eqs = some (.ok tab') → NoNeverTable tab → (∀ e ∈ eqs, e.1.NoNever ∧ e.2.NoNever) → NoNeverTable tab'
  | [], tab, tab', h, ht, _ => by cases h; exact ht
  | (c, e) :: rest, tab, tab', h, ht, he => by
    rw [Unify.solve] at h
    cases hu : unify pick tab c e with
    | none => rw [hu] at h; cases h
    | some r =>
      rw [hu] at h
      cases r with
      | error => cases h
      | ok tab₁ =>
        exact solve_noNever pick rest tab₁ tab' h ((unify_noNever pick).1 _ _ _ _ hu _ rfl ht (he (c, e) (by simp)).1 (he (c, e) (by simp)).2)
          fun x hx => he x (by simp [hx])

theorem noNever_fresh (n : Nat) : NoNeverTable (fresh n) := by
  intro v t h
  unfold fresh at h
  have := List.mem_of_getElem? h
  simp at this

/-- What a table without `never` stands for. -/
theorem tri_noNever {tab : Table} {θ : Nat → Ty} (h : Tri tab θ) (hn : NoNeverTable tab) (v : Nat) : (θ v).NoNever := by
  by_cases hv : v < tab.length
  · have := h.normalize (t := .var v) (fun w hw => by simp [Ty.contains] at hw; omega)
    rw [Ty.subst] at this
    exact (normalize_noNever hn).1 _ _ this (by rw [Ty.NoNever]; trivial)
  · rw [h.free v (fun t ht => by rw [List.getElem?_eq_none_iff.2 (by omega)] at ht; cases ht), Ty.NoNever]
    trivial

/-- Any unbound variable as the integers. -/
def ground : Nat → Ty := fun _ => int

theorem ground_closed (t : Ty) : Closed (t.subst ground) := by
  intro v
  cases h : (t.subst ground).contains v with
  | false => rfl
  | true =>
    rw [Ty.contains_subst] at h
    obtain ⟨w, _, h⟩ := h
    simp [ground, int, Ty.contains, Args.contains] at h

theorem zip_eq {f g : Ty → Ty} : ∀ {l l' : List Ty}, l.length = l'.length → (∀ e ∈ l.zip l', f e.1 = g e.2) → l.map f = l'.map g
  | [], [], _, _ => rfl
  | [], _ :: _, h, _ => by cases h
  | _ :: _, [], h, _ => by cases h
  | t :: l, t' :: l', h, he => by
    rw [List.map_cons, List.map_cons, he (t, t') (by simp), zip_eq (by simpa using h) fun e h => he e (by simp [h])]

/-- C64, the other direction without constraints: implementations are only refused if there are types to which both apply. -/
theorem C64_exact (hS : Tidy S) (env : Env) (fuel : Nat) (a b : Impl) (ha : ImplOk S a) (hb : ImplOk S b)
    (hca : a.constraints = []) (hcb : b.constraints = []) (hna : ∀ t ∈ a.inputs, t.NoNever) (hnb : ∀ t ∈ b.inputs, t.NoNever)
    (hna' : ∀ t ∈ a.outputs, t.NoNever) (hnb' : ∀ t ∈ b.outputs, t.NoNever) (hint : S (.native 0) [])
    (h : implsOverlap env fuel a b = some .overlap) (impls : List Impl) :
    ∃ ins outs outs', Applies impls derived a ins outs ∧ Applies impls derived b ins outs' := by
  unfold implsOverlap at h
  split at h
  · rename_i hv
    split at h
    · rename_i he
      refine ⟨a.inputs.map (·.subst ground), a.outputs.map (·.subst ground), b.outputs.map (·.subst ground),
        ⟨ground, fun v => ground_closed (.var v), rfl, rfl, ?_⟩, ground, fun v => ground_closed (.var v), by rw [he], rfl, ?_⟩
      · rw [hca]; intro t c c' hm; cases hm
      · rw [hcb]; intro t c c' hm; cases hm
    · cases h
  · unfold blanketOverlap at h
    split at h
    · cases h
    · rename_i hlen
      rw [not_not] at hlen
      cases hu : unifyHeads env (fresh (a.vars + b.vars)) a.inputs (b.inputs.map (·.shift a.vars)) a.outputs
          (b.outputs.map (·.shift a.vars)) with
      | none => rw [hu] at h; cases h
      | some r =>
        rw [hu] at h
        cases r with
        | error e => cases h
        | ok tab =>
          have hlf : (fresh (a.vars + b.vars)).length = a.vars + b.vars := by simp [fresh]
          have ha1 : ∀ t ∈ a.inputs, TyOk S (a.vars + b.vars) t := fun t ht => (ha.inputs t ht).mono (by omega)
          have ha2 : ∀ t ∈ a.outputs, TyOk S (a.vars + b.vars) t := fun t ht => (ha.outputs t ht).mono (by omega)
          have hb1 : ∀ t ∈ b.inputs.map (·.shift a.vars), TyOk S (a.vars + b.vars) t := by
            intro t ht
            obtain ⟨u, hu', rfl⟩ := List.mem_map.1 ht
            exact (hb.inputs u hu').shift
          have hb2 : ∀ t ∈ b.outputs.map (·.shift a.vars), TyOk S (a.vars + b.vars) t := by
            intro t ht
            obtain ⟨u, hu', rfl⟩ := List.mem_map.1 ht
            exact (hb.outputs u hu').shift
          have hwf : ∀ e ∈ a.inputs.zip (b.inputs.map (·.shift a.vars)) ++ a.outputs.zip (b.outputs.map (·.shift a.vars)),
              InTable (fresh (a.vars + b.vars)) e.1 ∧ InTable (fresh (a.vars + b.vars)) e.2 ∧ e.1.Sorted S ∧ e.2.Sorted S := by
            intro e he
            unfold InTable
            rw [hlf]
            rcases List.mem_append.1 he with he | he
            · have h1 := ha1 _ (List.of_mem_zip he).1
              have h2 := hb1 _ (List.of_mem_zip he).2
              exact ⟨h1.1, h2.1, h1.2, h2.2⟩
            · have h1 := ha2 _ (List.of_mem_zip he).1
              have h2 := hb2 _ (List.of_mem_zip he).2
              exact ⟨h1.1, h2.1, h1.2, h2.2⟩
          obtain ⟨r, hr, hp⟩ := solve_spec (pick := env.pick) hS.named _ _ _ (tri_fresh _) (sorted_fresh _) hwf
          unfold unifyHeads at hu
          rw [hu] at hr
          cases hr
          obtain ⟨p1, ⟨θ, p2⟩, p3, -, p5, -⟩ := hp
          have hag := (p5 θ p2.respects).2
          set σ : Nat → Ty := fun v => (θ v).subst ground with hσ
          have hsub : ∀ t : Ty, t.subst σ = (t.subst θ).subst ground := fun t => by rw [Ty.subst_subst]
          have hsg : Respects tab σ := by
            intro v t ht
            rw [hsub, hσ]
            simp only
            rw [p2.bound v t ht]
          have hag := (p5 σ hsg).2
          have hσs : ∀ v, (σ v).Sorted S := fun v =>
            Ty.sorted_subst _ (p2.sorted p3 v) fun w _ => by
              rw [ground, int, Ty.Sorted, Args.Sorted, Args.names]
              exact ⟨hint, trivial⟩
          have hσn : ∀ v, (σ v).NoNever := by
            refine fun v => noNever_subst (fun w => ?_) _ (tri_noNever p2 (solve_noNever _ _ _ _ hu (noNever_fresh _) ?_) v)
            · rw [ground, int, Ty.NoNever, Args.NoNever]
              trivial
            · have hsh : ∀ l : List Ty, (∀ t ∈ l, t.NoNever) → ∀ t ∈ l.map (·.shift a.vars), t.NoNever := by
                intro l hl t ht
                obtain ⟨u, hu', rfl⟩ := List.mem_map.1 ht
                rw [shift_eq]
                exact noNever_subst (fun v => by rw [Ty.NoNever]; trivial) _ (hl u hu')
              intro e he
              rcases List.mem_append.1 he with he | he
              · exact ⟨hna _ (List.of_mem_zip he).1, hsh _ hnb _ (List.of_mem_zip he).2⟩
              · exact ⟨hna' _ (List.of_mem_zip he).1, hsh _ hnb' _ (List.of_mem_zip he).2⟩
          have heq : a.inputs.map (·.subst σ) = (b.inputs.map (·.shift a.vars)).map (·.subst σ) := by
            refine zip_eq (by simpa using hlen) fun e he => ?_
            obtain ⟨-, -, e3, e4⟩ := hwf e (List.mem_append_left _ he)
            refine (sameShape hS (hag e (List.mem_append_left _ he)) (Ty.sorted_subst _ e3 fun v _ => hσs v)
              (Ty.sorted_subst _ e4 fun v _ => hσs v)).eq ?_ ?_
            · exact noNever_subst hσn _ (hna _ (List.of_mem_zip he).1)
            · refine noNever_subst hσn _ ?_
              obtain ⟨u, hu', he'⟩ := List.mem_map.1 (List.of_mem_zip he).2
              rw [← he', shift_eq]
              exact noNever_subst (fun v => by rw [Ty.NoNever]; trivial) _ (hnb u hu')
          refine ⟨a.inputs.map (·.subst σ), a.outputs.map (·.subst σ), b.outputs.map (·.subst fun v => σ (a.vars + v)),
            ⟨σ, fun v => ground_closed (θ v), rfl, rfl, ?_⟩, fun v => σ (a.vars + v), fun v => ground_closed _, ?_, rfl, ?_⟩
          · rw [hca]; intro t c c' hm; cases hm
          · rw [heq, List.map_map]
            exact List.map_congr_left fun t _ => shift_subst _ _ t
          · rw [hcb]; intro t c c' hm; cases hm

/-! ### The counterexamples -/

/-- The type `W<t>`. -/
def W (t : Ty) : Ty := .node (.named 10) (.cons none t .nil)

/-- The type `V<t>`. -/
def V (t : Ty) : Ty := .node (.named 11) (.cons none t .nil)

/-- The type `P<t, u>`. -/
def P (t u : Ty) : Ty := .node (.named 20) (.cons none t (.cons none u .nil))

/-- `impl<T> Adapter for <Self = P<T, int> |-> Output = int>`. -/
def leftAdapter : Impl := ⟨0, 1, [P (.var 0) int], [int], []⟩

/-- `impl<T> Adapter for <Self = P<int, T> |-> Output = bool>`. -/
def rightAdapter : Impl := ⟨0, 1, [P int (.var 0)], [bool], []⟩

/-- C64 fails with output types: two implementations which both apply to `P<int, int>`, with other outputs, are accepted. -/
theorem C64_outputs_violated (env : List Impl → Env) (h : ∀ known, (env known).impls = known) (fuel : Nat) :
    declare env fuel [] [leftAdapter, rightAdapter] = some .disjoint ∧
      ∀ impls, Applies impls derived leftAdapter [P int int] [int] ∧ Applies impls derived rightAdapter [P int int] [bool] := by
  constructor
  · simp [declare, checkImpl, h, firstOther, implsOverlap, blanketOverlap, rightAdapter, leftAdapter, P, Unify.int, Unify.bool,
      unifyHeads, Unify.solve, unify, Unify.normalize, normalizeArgs, Ty.shift, Args.shift, fresh, unifyArgs, checksLength,
      assertsLength, checksNames, swaps, Args.length, unifyVariable, Unify.bind, Ty.contains, Args.contains, List.replicate]
  · intro impls
    refine ⟨⟨ground, fun v => ground_closed (.var v), ?_, ?_, ?_⟩, ground, fun v => ground_closed (.var v), ?_, ?_, ?_⟩ <;>
      simp [leftAdapter, rightAdapter, P, ground, Ty.subst, Args.subst, Unify.int, Unify.bool]

/-- `impl<T> Tr for W<T> where T: Foo`. -/
def needsFoo : Impl := ⟨0, 1, [W (.var 0)], [], [.haveTrait 1 [.var 0] []]⟩

/-- `impl<T> Tr for W<V<T>>`. -/
def deep : Impl := ⟨0, 1, [W (V (.var 0))], [], []⟩

/-- `impl<T> Foo for V<T>`. -/
def fooAll : Impl := ⟨1, 1, [V (.var 0)], [], []⟩

/-- C64 fails with constraints: the same three implementations are accepted in one order and refused in another one.  When they
are accepted, two of them apply to `W<V<int>>` in the end. -/
theorem C64_order_violated (env : List Impl → Env) (h : ∀ known, (env known).impls = known)
    (hd : ∀ known, (env known).hasDerivers 1 = false) (fuel : Nat) :
    declare env (fuel + 2) [] [needsFoo, deep, fooAll] = some .disjoint ∧
      declare env (fuel + 2) [] [needsFoo, fooAll, deep] = some .overlap ∧
      Applies [needsFoo, deep, fooAll] derived needsFoo [W (V int)] [] ∧ Applies [needsFoo, deep, fooAll] derived deep [W (V int)] [] := by
  refine ⟨?_, ?_, ?_, ?_⟩
  · simp [declare, checkImpl, h, firstOther, implsOverlap, blanketOverlap, needsFoo, deep, fooAll, W, V, maySatisfy, hd, Constraint.shift,
      unifyHeads, Unify.solve, unify, Unify.normalize, normalizeArgs, Ty.shift, Args.shift, fresh, unifyArgs, checksLength,
      assertsLength, checksNames, swaps, Args.length, unifyVariable, Unify.bind, Ty.contains, Args.contains, List.replicate,
      Ty.isConstant, Args.isConstant]
  · cases hp : (env [needsFoo, fooAll]).pick 2 0 <;>
    simp [declare, checkImpl, h, firstOther, implsOverlap, blanketOverlap, needsFoo, deep, fooAll, W, V, maySatisfy, hd, Constraint.shift,
      unifyHeads, Unify.solve, unify, Unify.normalize, normalizeArgs, Ty.shift, Args.shift, fresh, unifyArgs, checksLength,
      assertsLength, checksNames, swaps, Args.length, unifyVariable, unifyVariables, Unify.bind, Ty.contains, Args.contains,
      List.replicate, Ty.isConstant, Args.isConstant] at hp ⊢ <;> simp [hp, maySatisfy]
  · refine ⟨fun _ => V int, fun v w => by simp [V, int, Ty.contains, Args.contains], by simp [needsFoo, W, Ty.subst, Args.subst],
      by simp [needsFoo], ?_⟩
    intro t c c' hm
    simp only [needsFoo, List.mem_singleton, Constraint.haveTrait.injEq] at hm
    obtain ⟨rfl, rfl, rfl⟩ := hm
    have := Holds.given (impls := [needsFoo, deep, fooAll]) (derived := derived) fooAll ground (by simp)
      (fun v => ground_closed (.var v)) (by intro t c c' hm; simp [fooAll] at hm)
    simpa [fooAll, V, ground, Ty.subst, Args.subst] using this
  · refine ⟨ground, fun v => ground_closed (.var v), by simp [deep, W, V, ground, Ty.subst, Args.subst], by simp [deep], ?_⟩
    intro t c c' hm
    simp [deep] at hm

/-! ### C65: the check gives an answer -/

/-- `impl<T> Tr for W<T>`, whose body needs the layout of a variant with a payload of type `T`. -/
def needsLayout : Impl := ⟨0, 1, [W (.var 0)], [], [.other]⟩

/-- `impl Tr for W<int>`. -/
def onInt : Impl := ⟨0, 0, [W int], [], []⟩

/-- C65 fails: the compiler panics when a generic implementation with a constraint which is not about a trait is compared with
another one, here with one which overlaps it. -/
theorem C65_panic_violated (env : List Impl → Env) (h : ∀ known, (env known).impls = known) (fuel : Nat) :
    declare env (fuel + 1) [] [needsLayout, onInt] = some .panic ∧
      ∀ impls, Applies impls derived needsLayout [W int] [] ∧ Applies impls derived onInt [W int] [] := by
  constructor
  · simp [declare, checkImpl, h, firstOther, implsOverlap, blanketOverlap, needsLayout, onInt, W, Unify.int, Constraint.shift,
      unifyHeads, Unify.solve, unify, Unify.normalize, normalizeArgs, Ty.shift, Args.shift, fresh, unifyArgs, checksLength,
      assertsLength, checksNames, swaps, Args.length, unifyVariable, Unify.bind, Ty.contains, Args.contains, List.replicate, maySatisfy]
  · intro impls
    refine ⟨⟨ground, fun v => ground_closed (.var v), ?_, ?_, ?_⟩, ground, fun v => ground_closed (.var v), ?_, ?_, ?_⟩ <;>
      simp [needsLayout, onInt, W, ground, Ty.subst, Args.subst, Unify.int]

/-- `impl Foo for int`. -/
def fooInt : Impl := ⟨1, 0, [int], [], []⟩

/-- `impl<T> Foo for V<T> where T: Foo`. -/
def fooV : Impl := ⟨1, 1, [V (.var 0)], [], [.haveTrait 1 [.var 0] []]⟩

/-- `impl Bar for bool`. -/
def barBool : Impl := ⟨2, 0, [bool], [], []⟩

/-- `impl<T> Tr for W<T> where T: Bar`. -/
def needsBar : Impl := ⟨0, 1, [W (.var 0)], [], [.haveTrait 2 [.var 0] []]⟩

/-- `V<V<...t>>`. -/
def tower : Nat → Ty → Ty
  | 0, t => t
  | k + 1, t => V (tower k t)

theorem tower_subst (ρ : Nat → Ty) (t : Ty) : ∀ k, (tower k t).subst ρ = tower k (t.subst ρ)
  | 0 => rfl
  | k + 1 => by rw [tower, tower, V, V, Ty.subst, Args.subst, Args.subst, tower_subst ρ t k]

theorem tower_V (t : Ty) : ∀ k, tower k (V t) = tower (k + 1) t
  | 0 => rfl
  | k + 1 => by rw [tower, tower_V t k]; rfl

theorem tower_constant (t : Ty) (h : t.isConstant = true) : ∀ k, (tower k t).isConstant = true
  | 0 => h
  | k + 1 => by rw [tower, V, Ty.isConstant, Args.isConstant, Args.isConstant, tower_constant t h k]; rfl

/-- A type against an unbound variable. -/
theorem unify_unbound {pick : Nat → Nat → Bool} {tab : Table} {θ : Nat → Ty} (h : Tri tab θ) {u : Nat} (hu : tab[u]? = some none) {k : Head}
    {args : Args} (ht : InTable tab (.node k args)) (hfix : (Ty.node k args).subst θ = .node k args)
    (hc : (Ty.node k args).contains u = false) :
    unify pick tab (.node k args) (.var u) = some (.ok (tab.set u (some (.node k args)))) := by
  have hul := (List.getElem?_eq_some_iff.1 hu).1
  have hv : θ u = .var u := h.free u fun t ht => by rw [hu] at ht; cases ht
  rw [unify, if_neg (by simp), h.normalize ht, h.normalize (t := .var u) (fun w hw => by simp [Ty.contains] at hw; omega)]
  rw [hfix]
  simp [Ty.subst, hv, unifyVariable, hc, Unify.bind, hu]

theorem endless (env : Env) (hi : env.impls = [fooInt, fooV, barBool, needsFoo]) (hd : ∀ t, env.hasDerivers t = false)
    (hs : ∀ k, env.solve 2 [tower k int] = none) : ∀ (fuel : Nat) (tab : Table) (θ : Nat → Ty) (u w r k : Nat) (stack : List Query),
    Tri tab θ → tab[u]? = some none → w < tab.length → r < tab.length → θ w = .var u → θ r = tower k (.var u) →
    (∀ m, m = u ∨ tab.length ≤ m → (1, [.var m], []) ∉ stack) →
    maySatisfy env fuel tab [.haveTrait 1 [.var w] [], .haveTrait 2 [.var r] []] stack = none
  | 0, _, _, _, _, _, _, _, _, _, _, _, _, _, _ => by rw [maySatisfy]
  | fuel + 1, tab, θ, u, w, r, k, stack, ht, hu, hw, hr, hθw, hθr, hst => by
    have hul := (List.getElem?_eq_some_iff.1 hu).1
    have hθu : θ u = .var u := ht.free u fun t ht => by rw [hu] at ht; cases ht
    have hnorm : ([.var w] : List Ty).mapM (Unify.normalize tab) = some [.var u] := by
      have := ht.normalize (t := .var w) (fun v hv => by simp [Ty.contains] at hv; omega)
      simp [this, Ty.subst, hθw]
    rw [maySatisfy, hnorm]
    simp only [List.mapM_nil, List.all_cons, List.all_nil, Ty.isConstant, Option.pure_def, Bool.and_true, Bool.false_eq_true, if_false, hd,
      Bool.and_false, Bool.false_and, hst u (.inl rfl), hi]
    have hfil : [fooInt, fooV, barBool, needsFoo].filter (·.trait == 1) = [fooInt, fooV] := by decide
    rw [hfil]
    simp only [firstOther]
    -- the candidate `int`
    have hint : unifyHeads env tab fooInt.inputs [.var u] fooInt.outputs [] = some (.ok (tab.set u (some int))) := by
      have := unify_unbound (pick := env.pick) ht hu (k := .native 0) (args := .nil) (fun v hv => by simp [Ty.contains, Args.contains] at hv)
        (by simp [Ty.subst, Args.subst]) (by simp [Ty.contains, Args.contains])
      simp [unifyHeads, fooInt, Unify.solve, int, this]
    have hti := ht.bind hu (t := int) (fun v hv => by simp [int, Ty.contains, Args.contains] at hv)
      (by simp [int, Ty.subst, Args.subst]) (by simp [int, Ty.contains, Args.contains])
    rw [hint]
    have hv0 : fooInt.vars = 0 := rfl
    have hv1 : fooV.vars ≠ 0 := by decide
    simp only [hv0, if_true, hv1, if_false]
    cases fuel with
    | zero => simp [maySatisfy]
    | succ fuel =>
      have hbar : ∀ st, maySatisfy env (fuel + 1) (tab.set u (some int)) [.haveTrait 2 [.var r] []] st = some .disjoint := by
        intro st
        have hn : ([.var r] : List Ty).mapM (Unify.normalize (tab.set u (some int))) = some [tower k int] := by
          have := hti.normalize (t := .var r) (fun v hv => by simp [Ty.contains] at hv; simp; omega)
          rw [Ty.subst, extend, hθr, tower_subst, Ty.subst, if_pos rfl] at this
          simp [this]
        rw [maySatisfy, hn]
        simp [tower_constant int rfl k, hs]
      rw [hbar]
      simp only
      -- the candidate `V<T>`
      have hta := tri_append ht 1
      have hua : (tab ++ fresh 1)[u]? = some none := by rw [List.getElem?_append_left hul]; exact hu
      have hL : θ tab.length = .var tab.length := ht.free _ fun t ht => by
        rw [List.getElem?_eq_none_iff.2 (le_refl _)] at ht; cases ht
      have hcon : InTable (tab ++ fresh 1) (V (.var tab.length)) := by
        intro v hv
        simp [V, Ty.contains, Args.contains] at hv
        simp [fresh, hv]
      have hfx : (V (.var tab.length)).subst θ = V (.var tab.length) := by simp [V, Ty.subst, Args.subst, hL]
      have hnc : (V (.var tab.length)).contains u = false := by
        simp [V, Ty.contains, Args.contains]; omega
      have hV : unifyHeads env (tab ++ fresh fooV.vars) (fooV.inputs.map (·.shift tab.length)) [.var u] (fooV.outputs.map (·.shift tab.length)) []
          = some (.ok ((tab ++ fresh 1).set u (some (V (.var tab.length))))) := by
        have := unify_unbound (pick := env.pick) hta hua hcon hfx hnc
        simp only [unifyHeads, fooV, List.map_cons, List.map_nil, V, Ty.shift, Args.shift, List.zip_cons_cons, List.zip_nil_left,
          List.append_nil, Unify.solve, Nat.add_zero]
        rw [this]
      have htv := hta.bind hua hcon hfx hnc
      rw [hV]
      simp only
      have := endless env hi hd hs (fuel + 1) _ _ tab.length tab.length r (k + 1) ((1, [.var u], []) :: stack) htv ?_ ?_ ?_ ?_ ?_ ?_
      · simp only [fooV, List.map_cons, List.map_nil, Constraint.shift, Ty.shift, Nat.add_zero, List.reverse_cons, List.reverse_nil,
          List.nil_append, List.cons_append, this]
      · rw [List.getElem?_set_ne (by omega), List.getElem?_append_right (le_refl _)]
        simp [fresh]
      · simp [fresh]
      · simp [fresh]; omega
      · rw [extend, hL, Ty.subst, if_neg (by omega)]
      · rw [extend, hθr, tower_subst, Ty.subst, if_pos rfl, tower_V]
      · intro m hm
        simp only [List.length_set, List.length_append, fresh, List.length_replicate] at hm
        rw [List.mem_cons, not_or]
        refine ⟨?_, hst m (.inr (by omega))⟩
        simp only [Prod.mk.injEq, List.cons.injEq, Ty.var.injEq, and_true, true_and]
        omega

/-- C65 fails: with these five implementations the check for the last one recurses without end, whatever bound on the number
of steps is chosen. -/
theorem C65_endless_violated (env : Env) (hi : env.impls = [fooInt, fooV, barBool, needsFoo]) (hd : ∀ t, env.hasDerivers t = false)
    (hs : ∀ k, env.solve 2 [tower k int] = none) (fuel : Nat) : checkImpl env fuel needsBar = none := by
  have hfil : [fooInt, fooV, barBool, needsFoo].filter (·.trait == needsBar.trait) = [needsFoo] := by decide
  rw [checkImpl, hi, hfil, firstOther]
  suffices H : implsOverlap env fuel needsBar needsFoo = none by rw [H]
  have hheads : unifyHeads env (fresh 2) [W (.var 0)] [W (.var 1)] [] [] =
      some (.ok (if env.pick 0 1 then [some (.var 1), none] else [none, some (.var 0)])) := by
    cases hp : env.pick 0 1 <;>
    simp [W, unifyHeads, Unify.solve, unify, Unify.normalize, normalizeArgs, fresh, unifyArgs, checksLength,
      assertsLength, checksNames, swaps, Args.length, unifyVariables, Unify.bind, hp, List.replicate]
  have hb : blanketOverlap env fuel needsBar needsFoo = maySatisfy env fuel
      (if env.pick 0 1 then [some (.var 1), none] else [none, some (.var 0)]) [.haveTrait 1 [.var 1] [], .haveTrait 2 [.var 0] []] [] := by
    unfold blanketOverlap
    rw [if_neg (by decide)]
    have : unifyHeads env (fresh (needsBar.vars + needsFoo.vars)) needsBar.inputs (needsFoo.inputs.map (·.shift needsBar.vars))
        needsBar.outputs (needsFoo.outputs.map (·.shift needsBar.vars)) = unifyHeads env (fresh 2) [W (.var 0)] [W (.var 1)] [] [] := rfl
    rw [this, hheads]
    rfl
  rw [implsOverlap, if_neg (by decide), hb]
  cases hp : env.pick 0 1 with
  | true =>
    simp only [if_true]
    have ht := (tri_fresh 2).bind (v := 0) (t := .var 1) rfl (fun v hv => by simp [Ty.contains] at hv; simp [fresh, hv]) (by rw [Ty.subst])
      (by simp [Ty.contains])
    exact endless env hi hd hs fuel [some (.var 1), none] _ 1 1 0 0 [] ht rfl (by simp) (by simp) (by simp [extend, Ty.subst])
      (by simp [extend, Ty.subst, tower]) (by simp)
  | false =>
    simp only [Bool.false_eq_true, if_false]
    have ht := (tri_fresh 2).bind (v := 1) (t := .var 0) rfl (fun v hv => by simp [Ty.contains] at hv; simp [fresh, hv]) (by rw [Ty.subst])
      (by simp [Ty.contains])
    exact endless env hi hd hs fuel [none, some (.var 0)] _ 0 1 0 0 [] ht rfl (by simp) (by simp) (by simp [extend, Ty.subst])
      (by simp [extend, Ty.subst, tower]) (by simp)

/-- The answer is one of the two expected ones. -/
def Answered (r : Option Answer) : Prop := r = some .overlap ∨ r = some .disjoint

theorem firstOther_answered {f : Impl → Option Answer} : ∀ l : List Impl, (∀ i ∈ l, Answered (f i)) → Answered (firstOther f l)
  | [], _ => .inr rfl
  | i :: l, h => by
    rw [firstOther]
    rcases h i (by simp) with hi | hi
    · rw [hi]; exact .inl rfl
    · rw [hi]; exact firstOther_answered l fun j hj => h j (by simp [hj])

/-- Unification of inputs and outputs ends. -/
theorem unifyHeads_ends (hS : FixedArity S) {env : Env} {tab : Table} {θ : Nat → Ty} (h : Tri tab θ) (hs : SortedTable S tab)
    {a a' b b' : List Ty} (ha : ∀ t ∈ a, TyOk S tab.length t) (ha' : ∀ t ∈ a', TyOk S tab.length t)
    (hb : ∀ t ∈ b, TyOk S tab.length t) (hb' : ∀ t ∈ b', TyOk S tab.length t) :
    (∃ e, unifyHeads env tab a a' b b' = some (.error e)) ∨
      ∃ tab' θ', unifyHeads env tab a a' b b' = some (.ok tab') ∧ tab'.length = tab.length ∧ Tri tab' θ' ∧ SortedTable S tab' := by
  obtain ⟨r, hr, hp⟩ := solve_spec (pick := env.pick) hS (a.zip a' ++ b.zip b') tab θ h hs (by
    intro e he
    rcases List.mem_append.1 he with he | he
    · have h1 := ha _ (List.of_mem_zip he).1
      have h2 := ha' _ (List.of_mem_zip he).2
      exact ⟨h1.1, h2.1, h1.2, h2.2⟩
    · have h1 := hb _ (List.of_mem_zip he).1
      have h2 := hb' _ (List.of_mem_zip he).2
      exact ⟨h1.1, h2.1, h1.2, h2.2⟩)
  cases r with
  | error e => exact .inl ⟨e, hr⟩
  | ok tab' =>
    obtain ⟨p1, ⟨θ', p2⟩, p3, -⟩ := hp
    exact .inr ⟨tab', θ', hr, p1, p2, p3⟩

theorem maySatisfy_ends (hS : FixedArity S) (env : Env) (hi : ∀ i ∈ env.impls, ImplOk S i) (hc : ∀ i ∈ env.impls, i.constraints = [])
    (hv : ∀ t ins outs, env.solve t ins = some outs → ∀ o ∈ outs, TyOk S 0 o) : ∀ (fuel : Nat) (tab : Table) (θ : Nat → Ty)
    (pending : List Constraint) (stack : List Query), Tri tab θ → SortedTable S tab → (∀ c ∈ pending, ConstraintOk S tab.length c) →
    .other ∉ pending → pending.length < fuel → Answered (maySatisfy env fuel tab pending stack)
  | 0, _, _, _, _, _, _, _, _, hf => by omega
  | fuel + 1, tab, θ, [], stack, _, _, _, _, _ => by rw [maySatisfy]; exact .inl rfl
  | fuel + 1, tab, θ, .other :: _, stack, _, _, _, ho, _ => absurd (by simp) ho
  | fuel + 1, tab, θ, .haveTrait t ins outs :: pending, stack, ht, hs, hp, ho, hf => by
    have hok := hp _ List.mem_cons_self
    have hins : ∀ u ∈ ins.map (·.subst θ), TyOk S tab.length u := by
      intro u hu
      obtain ⟨x, hx, rfl⟩ := List.mem_map.1 hu
      exact (hok.1 x hx).norm ht hs
    have houts : ∀ u ∈ outs.map (·.subst θ), TyOk S tab.length u := by
      intro u hu
      obtain ⟨x, hx, rfl⟩ := List.mem_map.1 hu
      exact (hok.2 x hx).norm ht hs
    have hp' : ∀ c ∈ pending, ConstraintOk S tab.length c := fun c hc => hp c (List.mem_cons_of_mem _ hc)
    have ho' : .other ∉ pending := fun h => ho (List.mem_cons_of_mem _ h)
    have hf' : pending.length < fuel := by simpa using hf
    have rec0 : Answered (maySatisfy env fuel tab pending stack) :=
      maySatisfy_ends hS env hi hc hv fuel tab θ pending stack ht hs hp' ho' hf'
    rw [maySatisfy, mapM_normalize ht ins hok.1, mapM_normalize ht outs hok.2]
    generalize ins.map (·.subst θ) = ins' at hins
    generalize outs.map (·.subst θ) = outs' at houts
    simp only
    split
    · cases hsol : env.solve t ins' with
      | none => exact .inr rfl
      | some solved =>
        have := unifyHeads_ends hS (env := env) ht hs (a := []) (a' := []) (b := solved) (b' := outs') (by simp) (by simp)
          (fun o ho => (hv _ _ _ hsol o ho).mono (by omega)) houts
        simp only [unifyHeads, List.zip_nil_left, List.nil_append] at this
        rcases this with ⟨e, he⟩ | ⟨tab', θ', he, h1, h2, h3⟩
        · simp only [he]; exact .inr rfl
        · simp only [he]
          exact maySatisfy_ends hS env hi hc hv fuel tab' θ' pending stack h2 h3 (by rw [h1]; exact hp') ho' hf'
    · split
      · exact rec0
      · split
        · exact .inl rfl
        · have key : ∀ (r e : Option Answer), Answered r → Answered e → Answered (match r with | some .disjoint => e | r => r) := by
            intro r e hr he
            rcases hr with rfl | rfl
            · exact .inl rfl
            · exact he
          refine key _ _ ?_ ?_
          · refine firstOther_answered _ fun i him => ?_
            have him : i ∈ env.impls := (List.mem_filter.1 him).1
            have hik := hi i him
            split
            · rename_i h0
              rcases unifyHeads_ends hS (env := env) ht hs (a := i.inputs) (a' := ins') (b := i.outputs) (b' := outs')
                (fun x hx => (hik.inputs x hx).mono (by omega)) hins (fun x hx => (hik.outputs x hx).mono (by omega)) houts
                with ⟨e, he⟩ | ⟨tab', θ', he, h1, h2, h3⟩
              · simp only [he]; exact .inr rfl
              · simp only [he]
                exact maySatisfy_ends hS env hi hc hv fuel tab' θ' pending _ h2 h3 (by rw [h1]; exact hp') ho' hf'
            · have hlen : (tab ++ fresh i.vars).length = tab.length + i.vars := by simp [fresh]
              rcases unifyHeads_ends hS (env := env) (tri_append ht i.vars) (sorted_append hs i.vars)
                (a := i.inputs.map (·.shift tab.length)) (a' := ins') (b := i.outputs.map (·.shift tab.length)) (b' := outs')
                (by
                  intro x hx
                  obtain ⟨y, hy, rfl⟩ := List.mem_map.1 hx
                  rw [hlen]
                  exact (hik.inputs y hy).shift)
                (fun x hx => (hins x hx).mono (by omega))
                (by
                  intro x hx
                  obtain ⟨y, hy, rfl⟩ := List.mem_map.1 hx
                  rw [hlen]
                  exact (hik.outputs y hy).shift)
                (fun x hx => (houts x hx).mono (by omega)) with ⟨e, he⟩ | ⟨tab', θ', he, h1, h2, h3⟩
              · simp only [he]; exact .inr rfl
              · simp only [he, hc i him, List.map_nil, List.reverse_nil, List.nil_append]
                exact maySatisfy_ends hS env hi hc hv fuel tab' θ' pending _ h2 h3
                  (fun c hc => (hp' c hc).mono (by omega)) ho' hf'
          · split
            · exact rec0
            · exact .inr rfl

/-- C65, the part which holds: if no known implementation has constraints, and those of the two compared are all about traits,
there is an answer after at most as many steps as there are constraints.  Missing: constraints of known implementations. -/
theorem C65_ends_partial (hS : FixedArity S) (env : Env) (hi : ∀ i ∈ env.impls, ImplOk S i) (hc : ∀ i ∈ env.impls, i.constraints = [])
    (hv : ∀ t ins outs, env.solve t ins = some outs → ∀ o ∈ outs, TyOk S 0 o) (a b : Impl) (ha : ImplOk S a) (hb : ImplOk S b)
    (hoa : .other ∉ a.constraints) (hob : .other ∉ b.constraints) (fuel : Nat)
    (hf : a.constraints.length + b.constraints.length < fuel) :
    implsOverlap env fuel a b = some .overlap ∨ implsOverlap env fuel a b = some .disjoint := by
  show Answered _
  unfold implsOverlap
  split
  · split
    · exact .inl rfl
    · exact .inr rfl
  · unfold blanketOverlap
    split
    · exact .inr rfl
    · have hlf : (fresh (a.vars + b.vars)).length = a.vars + b.vars := by simp [fresh]
      rcases unifyHeads_ends hS (env := env) (tri_fresh (a.vars + b.vars)) (sorted_fresh _) (a := a.inputs)
        (a' := b.inputs.map (·.shift a.vars)) (b := a.outputs) (b' := b.outputs.map (·.shift a.vars))
        (fun t ht => by rw [hlf]; exact (ha.inputs t ht).mono (by omega))
        (by
          intro x hx
          obtain ⟨y, hy, rfl⟩ := List.mem_map.1 hx
          rw [hlf]
          exact (hb.inputs y hy).shift)
        (fun t ht => by rw [hlf]; exact (ha.outputs t ht).mono (by omega))
        (by
          intro x hx
          obtain ⟨y, hy, rfl⟩ := List.mem_map.1 hx
          rw [hlf]
          exact (hb.outputs y hy).shift) with ⟨e, he⟩ | ⟨tab', θ', he, h1, h2, h3⟩
      · simp only [he]; exact .inr rfl
      · simp only [he]
        refine maySatisfy_ends hS env hi hc hv fuel tab' θ' _ [] h2 h3 ?_ ?_ ?_
        · intro c hc
          rw [List.mem_reverse, List.mem_append] at hc
          rw [h1, hlf]
          rcases hc with hc | hc
          · exact (ha.constraints c hc).mono (by omega)
          · obtain ⟨y, hy, rfl⟩ := List.mem_map.1 hc
            exact (hb.constraints y hy).shift
        · rw [List.mem_reverse, List.mem_append, not_or]
          refine ⟨hoa, fun h => ?_⟩
          obtain ⟨y, hy, hyo⟩ := List.mem_map.1 h
          cases y with
          | other => exact hob hy
          | haveTrait => cases hyo
        · simp only [List.length_reverse, List.length_append, List.length_map]
          exact hf

/-! ### The hypotheses are met -/

/-- Named types below 20 have one parameter, the next ten have two. -/
def demoSorts : Head → List (Option Nat) → Prop
  | .native _, ns => ns = []
  | .named k, ns => ns = List.replicate (k / 10) none
  | .record, ns => ns = [some 0] ∨ ns = [some 1, some 2]
  | .variant, _ => True
  | .tuple, ns => ∀ n ∈ ns, n = none
  | .function, ns => ∀ n ∈ ns, n = none

theorem demo_tidy : Tidy demoSorts where
  named := by intro k ns ms h h'; simp only [demoSorts] at h h'; rw [h, h']
  native := by intro k ns ms h h'; simp only [demoSorts] at h h'; rw [h, h']
  positional := by
    intro h ns hc hs n hn
    cases h with
    | native k => simp only [demoSorts] at hs; subst hs; cases hn
    | named k => simp only [demoSorts] at hs; subst hs; exact List.eq_of_mem_replicate hn
    | tuple => exact hs n hn
    | function => exact hs n hn
    | variant => cases hc
    | record => cases hc
  records := by
    intro ns ms h h' hp
    simp only [demoSorts] at h h'
    rcases h with rfl | rfl <;> rcases h' with rfl | rfl <;> simp_all

/-- `impl Tr for W<bool>`. -/
def onBool : Impl := ⟨0, 0, [W Unify.bool], [], []⟩

theorem demo_impls : ∀ i ∈ [fooInt, needsFoo, onBool, deep, fooAll, leftAdapter, rightAdapter], ImplOk demoSorts i := by
  intro i hi
  simp only [List.mem_cons, List.not_mem_nil, or_false] at hi
  rcases hi with rfl | rfl | rfl | rfl | rfl | rfl | rfl <;>
    refine ⟨?_, ?_, ?_, ?_⟩ <;>
    simp [fooInt, needsFoo, onBool, deep, fooAll, leftAdapter, rightAdapter, W, V, P, Unify.int, Unify.bool, TyOk, ConstraintOk, Ty.contains,
      Args.contains, Ty.Sorted, Args.Sorted, Args.names, demoSorts]

open Classical in
/-- A solver which finds what holds, for traits without outputs and derivers. -/
noncomputable def demoEnv (impls : List Impl) : Env where
  impls := impls
  solve t ins := if Holds impls (fun _ _ _ => False) t ins [] then some [] else none
  hasDerivers _ := false
  value := 9
  noDerive _ := false
  pick _ _ := true

theorem demo_trusted (impls : List Impl) (h : ∀ i ∈ impls, i.outputs = []) : Trusted (demoEnv impls) (fun _ _ _ => False) where
  solver := by
    intro t ins outs ho
    have : outs = [] := by
      cases ho with
      | given i ρ hi => rw [h i hi]; rfl
      | derived h => exact h.elim
    subst this
    exact if_pos ho
  derivers := fun _ _ _ h => h.elim

/-- The check uses the constraints: `impl Foo for int`, `impl<T> Tr for W<T> where T: Foo` and `impl Tr for W<bool>` are
accepted since `bool` has no `Foo`. -/
theorem demo_accepted : declare demoEnv 2 [] [fooInt, needsFoo, onBool] = some .disjoint := by
  have hn : ¬ Holds [fooInt, needsFoo] (fun _ _ _ => False) 1 [Unify.bool] [] := by
    intro h
    generalize hins : [Unify.bool] = ins at h
    generalize ht : 1 = t at h
    generalize ([] : List Ty) = outs at h
    cases h with
    | given i ρ hi _ hc =>
      simp only [List.mem_cons, List.not_mem_nil, or_false] at hi
      rcases hi with rfl | rfl
      · simp [fooInt, Unify.bool, Unify.int, Ty.subst] at hins
      · simp [needsFoo] at ht
    | derived h => exact h
  have hsol : (demoEnv [fooInt, needsFoo]).solve 1 [Unify.bool] = none := if_neg hn
  have h : ∀ env : Env, env.solve 1 [Unify.bool] = none → implsOverlap env 2 onBool needsFoo = some .disjoint := by
    intro env h
    rw [Unify.bool] at h
    simp [implsOverlap, blanketOverlap, needsFoo, onBool, W, maySatisfy, Constraint.shift,
      unifyHeads, Unify.solve, unify, Unify.normalize, normalizeArgs, Ty.shift, Args.shift, fresh, unifyArgs, checksLength, Unify.bool,
      assertsLength, checksNames, swaps, Args.length, unifyVariable, Unify.bind, Ty.contains, Args.contains, List.replicate,
      Ty.isConstant, Args.isConstant, h]
  have h1 : checkImpl (demoEnv []) 2 fooInt = some .disjoint := rfl
  have h2 : checkImpl (demoEnv [fooInt]) 2 needsFoo = some .disjoint := rfl
  have h3 : checkImpl (demoEnv [fooInt, needsFoo]) 2 onBool = some .disjoint := by
    have : [fooInt, needsFoo].filter (·.trait == onBool.trait) = [needsFoo] := by decide
    rw [checkImpl, show (demoEnv [fooInt, needsFoo]).impls = [fooInt, needsFoo] from rfl, this, firstOther, h _ hsol]
    rfl
  simp only [declare, h1, List.nil_append, h2, List.cons_append, h3]

/-- C64 for this program: nothing has two implementations of `Tr`. -/
example (ins outs : List Ty) : ¬ (Applies [fooInt, needsFoo] (fun _ _ _ => False) needsFoo ins outs ∧
    Applies [fooInt, needsFoo] (fun _ _ _ => False) onBool ins outs) :=
  C64_at_most_one_partial demo_tidy.named demoEnv (fun _ _ h => h) (fun _ h => h) [fooInt, needsFoo, onBool]
    (fun i hi => demo_impls i (by simp at hi ⊢; tauto))
    (fun j => demo_trusted _ fun i hi => by
      have := List.mem_of_mem_take hi
      simp only [List.mem_cons, List.not_mem_nil, or_false] at this
      rcases this with rfl | rfl | rfl <;> rfl)
    2 demo_accepted 1 2 (by decide) needsFoo onBool rfl rfl rfl ins outs

/-- And `needsFoo` does apply to something there. -/
example : Applies [fooInt, needsFoo] (fun _ _ _ => False) needsFoo [W Unify.int] [] := by
  refine ⟨ground, fun v => ground_closed (.var v), by simp [needsFoo, W, ground, Ty.subst, Args.subst], by simp [needsFoo], ?_⟩
  intro t c c' hm
  simp only [needsFoo, List.mem_singleton, Constraint.haveTrait.injEq] at hm
  obtain ⟨rfl, rfl, rfl⟩ := hm
  have := Holds.given (impls := [fooInt, needsFoo]) (derived := fun _ _ _ => False) fooInt ground (by simp)
    (fun v => ground_closed (.var v)) (by intro t c c' hm; simp [fooInt] at hm)
  simpa [fooInt, ground, Ty.subst, Args.subst, Unify.int] using this

/-- The hypotheses of `C64_unconstrained` are met by two implementations with variables. -/
example (impls : List Impl) (ins outs : List Ty) : ¬ (Applies impls (fun _ _ _ => False) deep ins outs ∧
    Applies impls (fun _ _ _ => False) onBool ins outs) := by
  refine C64_unconstrained demo_tidy.named demoEnv (fun _ _ h => h) (fun _ h => h) [deep, onBool]
    (fun i hi => demo_impls i (by simp at hi ⊢; tauto))
    (fun j => demo_trusted _ fun i hi => by
      have := List.mem_of_mem_take hi
      simp only [List.mem_cons, List.not_mem_nil, or_false] at this
      rcases this with rfl | rfl <;> rfl)
    2 ?_ 0 1 (by decide) deep onBool rfl rfl rfl rfl rfl impls ins outs
  simp [declare, checkImpl, firstOther, implsOverlap, blanketOverlap, deep, onBool, W, V,
    unifyHeads, Unify.solve, unify, Unify.normalize, normalizeArgs, Ty.shift, Args.shift, fresh, unifyArgs, checksLength, Unify.bool,
    assertsLength, checksNames, swaps, Args.length, List.replicate, demoEnv]

/-- The hypotheses of `C64_exact` are met: `impl<T> Foo for V<T>` twice. -/
example (env : Env) (impls : List Impl) : ∃ ins outs outs', Applies impls derived fooAll ins outs ∧ Applies impls derived fooAll ins outs' := by
  refine C64_exact demo_tidy env 1 fooAll fooAll (demo_impls _ (by simp)) (demo_impls _ (by simp)) rfl rfl ?_ ?_ ?_ ?_ rfl ?_ impls
  · simp [fooAll, V, Ty.NoNever, Args.NoNever]
  · simp [fooAll, V, Ty.NoNever, Args.NoNever]
  · simp [fooAll]
  · simp [fooAll]
  · cases hp : env.pick 0 1 <;>
    simp [implsOverlap, blanketOverlap, fooAll, V, maySatisfy, unifyHeads, Unify.solve, unify, Unify.normalize, normalizeArgs, Ty.shift,
      Args.shift, fresh, unifyArgs, checksLength, assertsLength, checksNames, swaps, Args.length, unifyVariables, Unify.bind, hp,
      List.replicate]

/-- The hypotheses of `C65_ends_partial` are met, with a constraint. -/
example : implsOverlap (demoEnv [fooInt]) 2 needsFoo onBool = some .overlap ∨ implsOverlap (demoEnv [fooInt]) 2 needsFoo onBool = some .disjoint :=
  C65_ends_partial demo_tidy.named (demoEnv [fooInt]) (fun i hi => demo_impls i (by simp [demoEnv] at hi ⊢; tauto))
    (fun i hi => by simp [demoEnv] at hi; rw [hi]; rfl)
    (fun t ins outs h o ho => by
      simp only [demoEnv] at h
      split at h <;> cases h
      cases ho)
    needsFoo onBool (demo_impls _ (by simp)) (demo_impls _ (by simp)) (by decide) (by decide) 2 (by decide)

/-- The hypotheses of `C65_endless_violated` are met. -/
example : ∃ env : Env, env.impls = [fooInt, fooV, barBool, needsFoo] ∧ (∀ t, env.hasDerivers t = false) ∧
    (∀ k, env.solve 2 [tower k Unify.int] = none) ∧ env.solve 2 [Unify.bool] = some [] ∧ ∀ k, env.solve 1 [tower k Unify.int] = some [] := by
  have hb : ∀ k, tower k int ≠ bool := by
    intro k
    cases k with
    | zero => simp [tower, Unify.int, Unify.bool]
    | succ k => simp [tower, V, Unify.bool]
  refine ⟨⟨[fooInt, fooV, barBool, needsFoo], fun t ins => if t = 1 ∨ ins = [Unify.bool] then some [] else none, fun _ => false, 9, fun _ => false,
    fun _ _ => true⟩, rfl, fun _ => rfl, fun k => ?_, ?_, fun k => ?_⟩
  · simp [hb k]
  · simp
  · simp

end Ferlium.Coherence
