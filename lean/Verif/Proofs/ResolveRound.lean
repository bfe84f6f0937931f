import Verif.Proofs.ResolveTable

/-!
Matching an implementation with variables and its constraints.
-/
namespace Ferlium.Resolve
open Ferlium.Unify Ferlium.Coherence

variable {S : Head → List (Option Nat) → Prop} {arity : Nat → Nat × Nat} {env : Env}

/-- That types have a trait, whatever is visible. -/
abbrev Has (env : Env) (S : Head → List (Option Nat) → Prop) (d : Dict) (t : Nat) (ins outs : List Ty) : Prop :=
  Gives env.decls env.cur S false none d t ins outs

/-- The implementations made. -/
abbrev Made := List ((Nat × List Ty) × Dict × List Ty)

/-- All that the solver remembers is true. -/
structure SolverOk (env : Env) (S : Head → List (Option Nat) → Prop) (st : State) : Prop where
  made : ∀ t ins d outs, ((t, ins), d, outs) ∈ st.made → Has env S d t ins outs
  memo : ∀ s t ins outs, ((s, t, ins), outs) ∈ st.memo → ∃ d, Has env S d t ins outs

/-- The types of what has a trait are plain. -/
theorem Gives.plain (hw : World S arity env) {strict : Bool} {scope : Option Nat} {d : Dict} {t : Nat} {ins outs : List Ty}
    (h : Gives env.decls env.cur S strict scope d t ins outs) : Goal S arity t ins ∧ outs.length = (arity t).2 ∧ ∀ u ∈ outs, Plain S u := by
  cases h with
  | intro _ k d ρ ds h1 h2 h3 h4 h5 =>
    obtain ⟨hok, -, ⟨hi, hi'⟩, ⟨ho, ho'⟩, -⟩ := hw.formed d (List.mem_of_getElem? h1)
    refine ⟨⟨by simpa using hi, fun u hu => ?_⟩, by simpa using ho, fun u hu => ?_⟩
    · obtain ⟨x, hx, rfl⟩ := List.mem_map.1 hu
      exact Plain.subst h3 (hok.inputs x hx).2 (hi' x hx)
    · obtain ⟨x, hx, rfl⟩ := List.mem_map.1 hu
      exact Plain.subst h3 (hok.outputs x hx).2 (ho' x hx)

/-- What a search does: it ends, what it remembers and answers is true, what was made stays, and it answers where it must. -/
def SearchOk (env : Env) (S : Head → List (Option Nat) → Prop) (arity : Nat → Nat × Nat)
    (Sure : Made → Option Nat → Nat → List Ty → Prop) (sub : Search) : Prop :=
  ∀ st scope t ins, SolverOk env S st → Goal S arity t ins → ∃ st' a, sub st scope t ins = some (st', a) ∧ SolverOk env S st' ∧
    st.made ⊆ st'.made ∧ (∀ d outs, a = some (d, outs) → Has env S d t ins outs) ∧ (Sure st.made scope t ins → a ≠ none)

variable {Sure : Made → Option Nat → Nat → List Ty → Prop} {sub : Search}

theorem lookup_mem {α β : Type _} [BEq α] [LawfulBEq α] {k : α} {v : β} : ∀ {l : List (α × β)}, l.lookup k = some v → (k, v) ∈ l
  | [], h => by simp at h
  | (k', v') :: l, h => by
    rw [List.lookup_cons] at h
    split at h
    · rename_i hk
      rw [beq_iff_eq] at hk
      cases h
      simp [hk]
    · exact List.mem_cons_of_mem _ (lookup_mem h)

theorem query_ok (hs : SearchOk env S arity Sure sub) {st : State} {scope : Option Nat} {t : Nat} {ins : List Ty}
    (h : SolverOk env S st) (hg : Goal S arity t ins) : ∃ st' a, query sub st scope t ins = some (st', a) ∧ SolverOk env S st' ∧
      st.made ⊆ st'.made ∧ (∀ outs, a = some outs → ∃ d, Has env S d t ins outs) ∧ (Sure st.made scope t ins → a ≠ none) := by
  unfold query
  split
  · rename_i outs ho
    split at ho
    · exact ⟨st, _, rfl, h, fun _ hx => hx, fun _ ho' => by cases ho'; exact h.memo _ _ _ _ (lookup_mem ho), fun _ => by simp⟩
    · cases ho
  · obtain ⟨st', a, e, h1, h2, h3, h4⟩ := hs st scope t ins h hg
    rw [e]
    cases a with
    | none => exact ⟨_, _, rfl, ⟨h.made, h1.memo⟩, fun _ hx => hx, (fun _ ho => by cases ho), fun hq => absurd rfl (h4 hq)⟩
    | some r =>
      obtain ⟨d, outs⟩ := r
      have hd := h3 d outs rfl
      simp only
      split
      · refine ⟨_, _, rfl, ⟨h.made, fun s t' ins' outs' hm => ?_⟩, fun _ hx => hx, fun _ ho => by cases ho; exact ⟨d, hd⟩, fun _ => by simp⟩
        rcases List.mem_cons.1 hm with hm | hm
        · cases hm
          exact ⟨d, hd⟩
        · exact h1.memo _ _ _ _ hm
      · exact ⟨_, _, rfl, ⟨h.made, h1.memo⟩, fun _ hx => hx, fun _ ho => by cases ho; exact ⟨d, hd⟩, fun _ => by simp⟩

/-- What is known of the constraints that remain. -/
def PlacesOk (S : Head → List (Option Nat) → Prop) (arity : Nat → Nat × Nat) (i : Impl) (tab : Table) (l : List Place) : Prop :=
  ∀ p ∈ l, ∃ c, i.constraints[p.1]? = some c ∧ ConstraintOk S i.vars p.2 ∧ Shaped arity p.2 ∧ ∀ ρ, Respects tab ρ → p.2.inst ρ = c.inst ρ

/-- What is known of the constraints that were solved. -/
def NeedsOk (env : Env) (S : Head → List (Option Nat) → Prop) (i : Impl) (tab : Table) (l : List Need) : Prop :=
  ∀ p ∈ l, ∃ ins outs outs' d, i.constraints[p.1]? = some (.haveTrait p.2.1 ins outs) ∧ Has env S d p.2.1 p.2.2 outs' ∧
    ∀ ρ, Respects tab ρ → Good S ρ → ins.map (·.subst ρ) = p.2.2 ∧ outs.map (·.subst ρ) = outs'

theorem PlacesOk.mono {i : Impl} {tab tab' : Table} {l : List Place} (h : PlacesOk S arity i tab l)
    (hr : ∀ ρ, Respects tab' ρ → Respects tab ρ) : PlacesOk S arity i tab' l := fun p hp => by
  obtain ⟨c, h1, h2, h3, h4⟩ := h p hp
  exact ⟨c, h1, h2, h3, fun ρ hρ => h4 ρ (hr ρ hρ)⟩

theorem NeedsOk.mono {i : Impl} {tab tab' : Table} {l : List Need} (h : NeedsOk env S i tab l)
    (hr : ∀ ρ, Respects tab' ρ → Respects tab ρ) : NeedsOk env S i tab' l := fun p hp => by
  obtain ⟨ins, outs, outs', d, h1, h2, h3⟩ := h p hp
  exact ⟨ins, outs, outs', d, h1, h2, fun ρ hρ => h3 ρ (hr ρ hρ)⟩

theorem PlacesOk.norm {i : Impl} {tab : Table} {θ : Nat → Ty} {l : List Place} (ht : TableOk S i.vars tab θ)
    (h : PlacesOk S arity i tab l) : PlacesOk S arity i tab (l.map fun p => (p.1, p.2.inst θ)) := by
  intro q hq
  obtain ⟨p, hp, rfl⟩ := List.mem_map.1 hq
  obtain ⟨c, h1, h2, h3, h4⟩ := h p hp
  exact ⟨c, h1, constraintOk_inst ht h2, shaped_inst ht.good h3, fun ρ hρ => by rw [inst_inst ht.tri hρ, h4 ρ hρ]⟩

/-- The choice of the variables makes the constraints true, and the search finds them. -/
def Solvable (env : Env) (S : Head → List (Option Nat) → Prop) (Sure : Made → Option Nat → Nat → List Ty → Prop) (i : Impl)
    (made : Made) (scope : Option Nat) (ρ : Nat → Ty) : Prop :=
  ∀ t ins outs, .haveTrait t ins outs ∈ i.constraints → Sure made scope t (ins.map (·.subst ρ)) ∧
    ∃ d, Has env S d t (ins.map (·.subst ρ)) (outs.map (·.subst ρ))

theorem round_ok (hw : World S arity env) (hs : SearchOk env S arity Sure sub)
    (hm : ∀ m m' scope t ins, m ⊆ m' → Sure m scope t ins → Sure m' scope t ins) (pick : Nat → Nat → Bool)
    (scope : Option Nat) (i : Impl) : ∀ (l : List Place) (st : State) (tab : Table) (θ : Nat → Ty), SolverOk env S st →
      TableOk S i.vars tab θ → PlacesOk S arity i tab l →
    ∃ st' a, round sub pick scope st tab l = some (st', a) ∧ SolverOk env S st' ∧ st.made ⊆ st'.made ∧
      (∀ tab' still needs, a = some (tab', still, needs) → ∃ θ', TableOk S i.vars tab' θ' ∧ (∀ ρ, Respects tab' ρ → Respects tab ρ) ∧
        PlacesOk S arity i tab' still ∧ NeedsOk env S i tab' needs ∧ (still.map (·.1) ++ needs.map (·.1)).Perm (l.map (·.1)) ∧
        (needs = [] → tab' = tab ∧ still = l.map (fun p => (p.1, p.2.inst θ)) ∧
          ∀ p ∈ still, ∀ t ins outs, p.2 = .haveTrait t ins outs → ins.all (·.isConstant) = false)) ∧
      (∀ ρ, (∀ v, Plain S (ρ v)) → Respects tab ρ → Solvable env S Sure i st.made scope ρ →
        ∃ tab' still needs, a = some (tab', still, needs) ∧ Respects tab' ρ)
  | [], st, tab, θ, h, ht, _ => by
    refine ⟨st, _, rfl, h, fun _ hx => hx, ?_, fun ρ _ hρ _ => ⟨_, _, _, rfl, hρ⟩⟩
    rintro tab' still needs he
    cases he
    exact ⟨θ, ht, fun _ hρ => hρ, (fun p hp => by cases hp), (fun p hp => by cases hp), by simp, fun _ => ⟨rfl, rfl, fun p hp => by cases hp⟩⟩
  | (n, c) :: rest, st, tab, θ, h, ht, hp => by
    obtain ⟨c0, hc1, hc2, hc3, hc4⟩ := hp (n, c) (by simp)
    have hrest : PlacesOk S arity i tab rest := fun p hpr => hp p (by simp [hpr])
    simp only at hc1 hc2 hc3 hc4
    rw [round, normConstraint_eq ht hc2]
    cases c with
    | other => exact hc3.elim
    | haveTrait t ins outs =>
      have hok' : ConstraintOk S i.vars _ := constraintOk_inst ht hc2
      have hsh' : Shaped arity _ := shaped_inst ht.good hc3
      have hc0 : ∀ ρ, Respects tab ρ → (Constraint.inst θ (.haveTrait t ins outs)).inst ρ = c0.inst ρ :=
        fun ρ hρ => by rw [inst_inst ht.tri hρ, hc4 ρ hρ]
      rw [Constraint.inst] at hok' hsh' hc0
      rw [Constraint.inst]
      simp only
      generalize hins : ins.map (·.subst θ) = ins' at *
      generalize houts : outs.map (·.subst θ) = outs' at *
      have hc0t : ∃ i0 o0, c0 = .haveTrait t i0 o0 := by
        have := hc0 θ ht.tri.respects
        cases c0 with
        | other => rw [Constraint.inst, Constraint.inst] at this; cases this
        | haveTrait t0 i0 o0 =>
          rw [Constraint.inst, Constraint.inst] at this
          injection this with h1
          exact ⟨i0, o0, by rw [h1]⟩
      obtain ⟨i0, o0, rfl⟩ := hc0t
      split
      · rename_i hconst
        have hcl := all_constant.1 hconst
        have hgoal : Goal S arity t ins' := ⟨hsh'.1.1, fun u hu => ⟨hcl u hu, hsh'.1.2 u hu, (hok'.1 u hu).2⟩⟩
        obtain ⟨st1, a1, e1, h1, h2, h3, h4⟩ := query_ok (scope := scope) hs h hgoal
        rw [e1]
        have hfix : ∀ ρ, ins'.map (·.subst ρ) = ins' := fun ρ => map_closed _ hconst ρ
        cases a1 with
        | none =>
          refine ⟨st1, none, rfl, h1, h2, (fun _ _ _ he => by cases he), fun ρ hpl hρ hsol => ?_⟩
          have := (hsol t i0 o0 (List.mem_of_getElem? hc1)).1
          have he := hc0 ρ hρ
          rw [Constraint.inst, Constraint.inst, hfix ρ] at he
          injection he with _ he
          rw [← he] at this
          exact absurd rfl (h4 this)
        | some solved =>
          obtain ⟨d, hd⟩ := h3 solved rfl
          obtain ⟨-, hlen, hpl⟩ := hd.plain hw
          obtain ⟨r, hr, hr1, hr2⟩ := solve_lists (a := solved) (b := outs') hw.tidy pick ht (by rw [hlen, hsh'.2.1])
            (fun u hu => ⟨⟨(fun v hv => by rw [(hpl u hu).1 v] at hv; cases hv), (hpl u hu).2.2⟩, (hpl u hu).2.1⟩)
            (fun u hu => ⟨hok'.2 u hu, hsh'.2.2 u hu⟩)
          have hsolved : ∀ ρ, solved.map (·.subst ρ) = solved :=
            fun ρ => map_closed _ (all_constant.2 fun u hu => (hpl u hu).1) ρ
          -- the search for a choice which makes the constraint true
          have hchoice : ∀ ρ, Respects tab ρ → Solvable env S Sure i st.made scope ρ → outs'.map (·.subst ρ) = solved := by
            intro ρ hρ hsol
            obtain ⟨-, d', hd'⟩ := hsol t i0 o0 (List.mem_of_getElem? hc1)
            have he := hc0 ρ hρ
            rw [Constraint.inst, Constraint.inst, hfix ρ] at he
            injection he with _ he he'
            rw [← he, ← he'] at hd'
            exact ((unique hw hd hd').2).symm
          simp only
          rw [hr]
          cases r with
          | error err =>
            refine ⟨st1, none, rfl, h1, h2, (fun _ _ _ he => by cases he), fun ρ hpl hρ hsol => ?_⟩
            obtain ⟨_, hx, _⟩ := hr2 ρ hρ (by rw [hsolved, hchoice ρ hρ hsol])
            cases hx
          | ok tab1 =>
            obtain ⟨θ1, ht1, hre, heq⟩ := hr1 tab1 rfl
            obtain ⟨st2, a2, e2, k1, k2, k3, k4⟩ := round_ok hw hs hm pick scope i rest st1 tab1 θ1 h1 ht1 (hrest.mono hre)
            simp only
            rw [e2]
            cases a2 with
            | none =>
              refine ⟨st2, none, rfl, k1, List.Subset.trans h2 k2, (fun _ _ _ he => by cases he), fun ρ hpl hρ hsol => ?_⟩
              obtain ⟨tab', hx, hρ'⟩ := hr2 ρ hρ (by rw [hsolved, hchoice ρ hρ hsol])
              cases hx
              obtain ⟨_, _, _, hx, _⟩ := k4 ρ hpl hρ' fun t ins outs hc => ⟨hm _ _ _ _ _ h2 (hsol t ins outs hc).1, (hsol t ins outs hc).2⟩
              cases hx
            | some r =>
              obtain ⟨tab2, still, needs⟩ := r
              obtain ⟨θ2, q1, q2, q3, q4, q5, q6⟩ := k3 tab2 still needs rfl
              refine ⟨st2, _, rfl, k1, List.Subset.trans h2 k2, ?_, ?_⟩
              · intro tab' still' needs' he
                cases he
                refine ⟨θ2, q1, fun ρ hρ => hre ρ (q2 ρ hρ), q3, ?_, ?_, fun hx => by cases hx⟩
                · intro p hp
                  rcases List.mem_cons.1 hp with rfl | hp
                  · refine ⟨i0, o0, solved, d, hc1, hd, fun ρ hρ hgood => ?_⟩
                    have he := hc0 ρ (hre ρ (q2 ρ hρ))
                    rw [Constraint.inst, Constraint.inst, hfix ρ] at he
                    injection he with _ he he'
                    exact ⟨he.symm, by rw [← he', ← heq ρ (q2 ρ hρ) hgood, hsolved]⟩
                  · exact q4 p hp
                · simp only [List.map_cons]
                  exact (List.perm_middle).trans (q5.cons n)
              · intro ρ hpl hρ hsol
                obtain ⟨tab', hx, hρ'⟩ := hr2 ρ hρ (by rw [hsolved, hchoice ρ hρ hsol])
                cases hx
                obtain ⟨_, _, _, hx, hρ''⟩ := k4 ρ hpl hρ' fun t ins outs hc => ⟨hm _ _ _ _ _ h2 (hsol t ins outs hc).1, (hsol t ins outs hc).2⟩
                cases hx
                exact ⟨_, _, _, rfl, hρ''⟩
      · rename_i hconst
        obtain ⟨st2, a2, e2, k1, k2, k3, k4⟩ := round_ok hw hs hm pick scope i rest st tab θ h ht hrest
        rw [e2]
        cases a2 with
        | none =>
          refine ⟨st2, none, rfl, k1, k2, (fun _ _ _ he => by cases he), fun ρ hpl hρ hsol => ?_⟩
          obtain ⟨_, _, _, hx, _⟩ := k4 ρ hpl hρ hsol
          cases hx
        | some r =>
          obtain ⟨tab2, still, needs⟩ := r
          obtain ⟨θ2, q1, q2, q3, q4, q5, q6⟩ := k3 tab2 still needs rfl
          refine ⟨st2, _, rfl, k1, k2, ?_, ?_⟩
          · intro tab' still' needs' he
            cases he
            refine ⟨θ2, q1, q2, ?_, q4, ?_, ?_⟩
            · intro p hp
              rcases List.mem_cons.1 hp with rfl | hp
              · exact ⟨_, hc1, hok', hsh', fun ρ hρ => hc0 ρ (q2 ρ hρ)⟩
              · exact q3 p hp
            · simp only [List.map_cons, List.cons_append]
              exact q5.cons n
            · intro hn
              obtain ⟨a1, a2, a3⟩ := q6 hn
              refine ⟨a1, ?_, ?_⟩
              · rw [List.map_cons, a2, Constraint.inst, hins, houts]
              · intro p hp
                rcases List.mem_cons.1 hp with rfl | hp
                · intro t' ins'' outs'' he
                  simp only [Constraint.haveTrait.injEq] at he
                  rw [← he.2.1]
                  simpa using hconst
                · exact a3 p hp
          · intro ρ hpl hρ hsol
            obtain ⟨_, _, _, hx, hρ''⟩ := k4 ρ hpl hρ hsol
            cases hx
            exact ⟨_, _, _, rfl, hρ''⟩

end Ferlium.Resolve
