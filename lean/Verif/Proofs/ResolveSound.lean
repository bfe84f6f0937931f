import Verif.Proofs.ResolveMatch

/-!
The search for an implementation.
-/
namespace Ferlium.Resolve
open Ferlium.Unify Ferlium.Coherence

variable {S : Head → List (Option Nat) → Prop} {arity : Nat → Nat × Nat} {env : Env}
  {Sure : Made → Option Nat → Nat → List Ty → Prop} {sub : Search}

/-- A dictionary within reach: its implementations may be used, and it is not deeper than the number says, where what was made
already and what has no variables does not count. -/
inductive Near (env : Env) (S : Head → List (Option Nat) → Prop) (made : Made) :
    Nat → Option Nat → Dict → Nat → List Ty → List Ty → Prop
  | hit (n : Nat) (scope : Option Nat) (d : Dict) (t : Nat) (ins outs : List Ty) : ((t, ins), d, outs) ∈ made →
      Near env S made n scope d t ins outs
  | concrete (n : Nat) (scope : Option Nat) (k : Nat) (d : Decl) : env.decls[k]? = some d → Visible env.cur scope d →
      d.impl.vars = 0 → Near env S made n scope (.mk k []) d.impl.trait d.impl.inputs d.impl.outputs
  | intro (n : Nat) (scope : Option Nat) (k : Nat) (d : Decl) (ρ : Nat → Ty) (ds : List Dict) : env.decls[k]? = some d →
      Visible env.cur scope d → d.impl.vars ≠ 0 → (∀ v, Plain S (ρ v)) → ds.length = d.impl.constraints.length →
      (∀ (m t : Nat) (ins outs : List Ty) (e : Dict), d.impl.constraints[m]? = some (.haveTrait t ins outs) → ds[m]? = some e →
        Near env S made n (if d.home = env.cur then scope else some d.home) e t (ins.map (·.subst ρ)) (outs.map (·.subst ρ))) →
      Near env S made (n + 1) scope (.mk k ds) d.impl.trait (d.impl.inputs.map (·.subst ρ)) (d.impl.outputs.map (·.subst ρ))

theorem Near.mono {made made' : Made} (hm : made ⊆ made') {n : Nat} {scope : Option Nat} {d : Dict} {t : Nat} {ins outs : List Ty}
    (h : Near env S made n scope d t ins outs) : Near env S made' n scope d t ins outs := by
  induction h with
  | hit n scope d t ins outs h => exact .hit _ _ _ _ _ _ (hm h)
  | concrete n scope k d h1 h2 h3 => exact .concrete _ _ _ _ h1 h2 h3
  | intro n scope k d ρ ds h1 h2 h3 h4 h5 _ ih => exact .intro _ _ _ _ _ _ h1 h2 h3 h4 h5 ih

theorem Near.deeper {made : Made} {n : Nat} {scope : Option Nat} {d : Dict} {t : Nat} {ins outs : List Ty}
    (h : Near env S made n scope d t ins outs) : ∀ m, n ≤ m → Near env S made m scope d t ins outs := by
  induction h with
  | hit n scope d t ins outs h => exact fun m _ => .hit _ _ _ _ _ _ h
  | concrete n scope k d h1 h2 h3 => exact fun m _ => .concrete _ _ _ _ h1 h2 h3
  | intro n scope k d ρ ds h1 h2 h3 h4 h5 _ ih =>
    intro m hm
    obtain ⟨m, rfl⟩ : ∃ m', m = m' + 1 := ⟨m - 1, by omega⟩
    exact .intro _ _ _ _ _ _ h1 h2 h3 h4 h5 fun j t ins outs e hc he => ih j t ins outs e hc he m (by omega)

theorem novars_subst {n : Nat} (hn : n = 0) {l : List Ty} (h : ∀ t ∈ l, TyOk S n t) (ρ : Nat → Ty) : l.map (·.subst ρ) = l := by
  subst hn
  conv_rhs => rw [← List.map_id l]
  refine List.map_congr_left fun t ht => Closed.subst (fun v => ?_) ρ
  by_contra hc
  rw [Bool.not_eq_false] at hc
  exact absurd ((h t ht).1 v hc) (by omega)

theorem int_plain (hw : World S arity env) : Plain S int := by
  have := ground_plain (t := .var 0) hw (by rw [Ty.Sorted]; trivial) (by rw [Ty.NoNever]; trivial)
  rwa [Ty.subst] at this

theorem concrete_has (hw : World S arity env) {k : Nat} {d : Decl} (h1 : env.decls[k]? = some d) (h3 : d.impl.vars = 0) :
    Has env S (.mk k []) d.impl.trait d.impl.inputs d.impl.outputs := by
  have hf := hw.formed d (List.mem_of_getElem? h1)
  have := Gives.intro (decls := env.decls) (cur := env.cur) (S := S) (strict := false) none k d (fun _ => int) [] h1 (by intro h; cases h)
    (fun _ => int_plain hw) (by rw [hf.ok.concrete h3]; rfl) (fun n t ins outs e _ he => by simp at he)
  rwa [novars_subst h3 hf.ok.inputs, novars_subst h3 hf.ok.outputs] at this

theorem Near.has (hw : World S arity env) {st : State} (hs : SolverOk env S st) {n : Nat} {scope : Option Nat} {d : Dict} {t : Nat}
    {ins outs : List Ty} (h : Near env S st.made n scope d t ins outs) : Has env S d t ins outs := by
  induction h with
  | hit n scope d t ins outs h => exact hs.made _ _ _ _ h
  | concrete n scope k d h1 h2 h3 => exact concrete_has hw h1 h3
  | intro n scope k d ρ ds h1 h2 h3 h4 h5 _ ih =>
    exact .intro _ _ _ _ _ h1 (by intro h; cases h) h4 h5 fun m t ins outs e hc he => (ih m t ins outs e hc he).loose _

theorem Visible.of {scope scope' : Option Nat} {d : Decl} (h : Visible env.cur scope' d) (hs : scope' = none ∨ scope' = scope) :
    Visible env.cur scope d := by
  rcases hs with rfl | rfl
  · rcases h with h | h | h
    · exact .inl h
    · exact .inr (.inl h)
    · cases h
  · exact h

theorem Gives.near (hw : World S arity env) (made : Made) {scope : Option Nat} {d : Dict} {t : Nat} {ins outs : List Ty}
    (h : Gives env.decls env.cur S true scope d t ins outs) : ∀ n scope', Deep n d → (scope = none ∨ scope = scope') →
      Near env S made n scope' d t ins outs := by
  induction h with
  | intro scope k d ρ ds h1 h2 h3 h4 _ ih =>
    intro n scope' hn hsc
    have hf := hw.formed d (List.mem_of_getElem? h1)
    by_cases hv : d.impl.vars = 0
    · rw [novars_subst hv hf.ok.inputs, novars_subst hv hf.ok.outputs]
      have : ds = [] := List.length_eq_zero_iff.1 (by rw [h4, hf.ok.concrete hv]; rfl)
      subst this
      exact .concrete _ _ _ _ h1 ((h2 rfl).of hsc) hv
    · cases hn with
      | intro n _ _ hd =>
        refine .intro _ _ _ _ _ _ h1 ((h2 rfl).of hsc) hv h3 h4 fun m t ins outs e hc he => ?_
        refine ih m t ins outs e hc he n _ (hd e (List.mem_of_getElem? he)) ?_
        unfold within
        split
        · exact .inl rfl
        · exact .inr rfl

/-- The dictionary is smaller than that of the goal. -/
def Above (env : Env) (S : Head → List (Option Nat) → Prop) (d : Dict) (g : Nat × List Ty) : Prop :=
  ∀ d' outs', Has env S d' g.1 g.2 outs' → sizeOf d < sizeOf d'

/-- The search must answer. -/
def Surely (env : Env) (S : Head → List (Option Nat) → Prop) (levels : Nat) (stack : List (Nat × List Ty)) (made : Made)
    (scope : Option Nat) (t : Nat) (ins : List Ty) : Prop :=
  ∃ d outs, Near env S made levels scope d t ins outs ∧ Has env S d t ins outs ∧ ∀ g ∈ stack, Above env S d g

theorem Surely.mono {levels : Nat} {stack : List (Nat × List Ty)} (m m' : Made) (scope : Option Nat) (t : Nat) (ins : List Ty)
    (hm : m ⊆ m') : Surely env S levels stack m scope t ins → Surely env S levels stack m' scope t ins := by
  rintro ⟨d, outs, h1, h2⟩
  exact ⟨d, outs, h1.mono hm, h2⟩

theorem mem_ordered {d : Decl} {k : Nat} : (d, k) ∈ ordered env ↔ env.decls[k]? = some d := by
  unfold ordered
  rw [List.mem_append, List.mem_filter, List.mem_filter, List.mem_zipIdx_iff_getElem?]
  by_cases h : d.home = env.cur <;> simp [h]

theorem usable_iff {scope : Option Nat} {d : Decl} : usable env scope d = true ↔ Visible env.cur scope d := by
  unfold usable Visible
  simp only [Bool.or_eq_true, beq_iff_eq]
  tauto

theorem lookup_has (hw : World S arity env) {st : State} (hs : SolverOk env S st) {scope : Option Nat} {t : Nat} {ins : List Ty}
    {d : Dict} {outs : List Ty} (h : lookup env st scope t ins = some (d, outs)) : Has env S d t ins outs := by
  unfold lookup at h
  split at h
  · rename_i r hr
    cases h
    exact hs.made _ _ _ _ (lookup_mem hr)
  · rw [Option.map_eq_some_iff] at h
    obtain ⟨⟨e, k⟩, hf, he⟩ := h
    cases he
    have hp := List.find?_some hf
    simp only [Bool.and_eq_true, beq_iff_eq] at hp
    obtain ⟨⟨⟨hv, rfl⟩, rfl⟩, -⟩ := hp
    exact concrete_has hw (mem_ordered.1 (List.mem_of_find?_eq_some hf)) hv

theorem lookup_made {st : State} {scope : Option Nat} {t : Nat} {ins : List Ty} {d : Dict} {outs : List Ty}
    (h : ((t, ins), d, outs) ∈ st.made) : lookup env st scope t ins ≠ none := by
  unfold lookup
  have : st.made.lookup (t, ins) ≠ none := by
    intro hn
    rw [List.lookup_eq_none_iff] at hn
    simpa using hn _ h
  split
  · simp
  · rename_i hn
    exact absurd hn this

theorem lookup_concrete {st : State} {scope : Option Nat} {k : Nat} {d : Decl} (h1 : env.decls[k]? = some d)
    (h2 : Visible env.cur scope d) (h3 : d.impl.vars = 0) : lookup env st scope d.impl.trait d.impl.inputs ≠ none := by
  unfold lookup
  split
  · simp
  · intro hn
    rw [Option.map_eq_none_iff, List.find?_eq_none] at hn
    have := hn (d, k) (mem_ordered.2 h1)
    simp [h3, usable_iff.2 h2] at this

theorem search_ok (hw : World S arity env) (hs : SearchOk env S arity Sure sub)
    (hm : ∀ m m' scope t ins, m ⊆ m' → Sure m scope t ins → Sure m' scope t ins) (scope : Option Nat) {t : Nat} {ins : List Ty}
    (hg : Goal S arity t ins) : ∀ (l : List (Decl × Nat)) (st : State), SolverOk env S st →
      (∀ x ∈ l, env.decls[x.2]? = some x.1 ∧ x.1.impl.trait = t) →
    ∃ st' a, search sub env scope t ins st l = some (st', a) ∧ SolverOk env S st' ∧ st.made ⊆ st'.made ∧
      (∀ d outs, a = some (d, outs) → Has env S d t ins outs) ∧
      ((∃ x ∈ l, Visible env.cur scope x.1 ∧ ∃ ρ, (∀ v, Plain S (ρ v)) ∧ x.1.impl.inputs.map (·.subst ρ) = ins ∧
        Solvable env S Sure x.1.impl st.made (if x.1.home = env.cur then scope else some x.1.home) ρ) → a ≠ none)
  | [], st, h, _ => ⟨st, none, rfl, h, fun _ hx => hx, (fun _ _ he => by cases he), fun ⟨x, hx, _⟩ => by cases hx⟩
  | (d, k) :: rest, st, h, hl => by
    obtain ⟨hk, htr⟩ := hl (d, k) (by simp)
    simp only at hk htr
    have hf := hw.formed d (List.mem_of_getElem? hk)
    have hl' : ∀ x ∈ rest, env.decls[x.2]? = some x.1 ∧ x.1.impl.trait = t := fun x hx => hl x (by simp [hx])
    rw [search]
    split
    · rename_i hu
      simp only
      generalize hin : (if d.home = env.cur then scope else some d.home) = inner
      obtain ⟨st1, a1, e1, h1, h2, h3, h4⟩ := matchBlanket_ok (ins := ins) hw hs hm env.pick inner hf (by rw [htr]; exact hg) h
      rw [e1]
      -- going on with the others
      have hgo : ∀ st2, SolverOk env S st2 → st.made ⊆ st2.made → (∀ ρ, (∀ v, Plain S (ρ v)) → d.impl.inputs.map (·.subst ρ) = ins →
          Solvable env S Sure d.impl st.made inner ρ → False) →
          ∃ st' a, search sub env scope t ins st2 rest = some (st', a) ∧ SolverOk env S st' ∧ st.made ⊆ st'.made ∧
            (∀ d outs, a = some (d, outs) → Has env S d t ins outs) ∧
            ((∃ x ∈ (d, k) :: rest, Visible env.cur scope x.1 ∧ ∃ ρ, (∀ v, Plain S (ρ v)) ∧ x.1.impl.inputs.map (·.subst ρ) = ins ∧
              Solvable env S Sure x.1.impl st.made (if x.1.home = env.cur then scope else some x.1.home) ρ) → a ≠ none) := by
        intro st2 q1 q2 q3
        obtain ⟨st', a, e', r1, r2, r3, r4⟩ := search_ok hw hs hm scope hg rest st2 q1 hl'
        refine ⟨st', a, e', r1, List.Subset.trans q2 r2, r3, ?_⟩
        rintro ⟨x, hx, hv, ρ, hρ, hi, hsol⟩
        rcases List.mem_cons.1 hx with rfl | hx
        · rw [hin] at hsol
          exact (q3 ρ hρ hi hsol).elim
        · exact r4 ⟨x, hx, hv, ρ, hρ, hi, fun t ins outs hc => ⟨hm _ _ _ _ _ q2 (hsol t ins outs hc).1, (hsol t ins outs hc).2⟩⟩
      cases a1 with
      | none =>
        refine hgo st1 h1 h2 fun ρ hρ hi hsol => ?_
        obtain ⟨_, _, hx, _⟩ := h4 ρ hρ hi hsol
        cases hx
      | some r =>
        obtain ⟨outs, needs⟩ := r
        obtain ⟨ρ, hρ, hi, ho, hlen, hn⟩ := h3 outs needs rfl
        have hgoals : ∀ p ∈ needs, Goal S arity p.2.1 p.2.2 := by
          intro p hp
          obtain ⟨n, hlt, hget⟩ := List.getElem_of_mem hp
          have hlt' : n < d.impl.constraints.length := by rw [← hlen]; exact hlt
          obtain ⟨t', cins, couts, hc, -⟩ := hf.constraints _ (List.getElem_mem hlt')
          obtain ⟨e, d', hd'⟩ := hn n t' cins couts (by rw [List.getElem?_eq_getElem hlt', hc])
          rw [List.getElem?_eq_getElem hlt, hget] at e
          cases e
          exact (hd'.plain hw).1
        obtain ⟨st2, a2, e2, k1, k2, k3, k4⟩ := materialize_ok hs hm inner needs st1 h1 hgoals
        simp only
        rw [e2]
        cases a2 with
        | none =>
          refine hgo st2 k1 (List.Subset.trans h2 k2) fun ρ hρ hi hsol => ?_
          obtain ⟨_, _, hx, hy⟩ := h4 ρ hρ hi hsol
          cases hx
          exact k4 (fun p hp => hm _ _ _ _ _ h2 (hy p hp)) rfl
        | some ds =>
          obtain ⟨q1, q2⟩ := k3 ds rfl
          have hd : Has env S (.mk k ds) t ins outs := by
            have := Gives.intro (decls := env.decls) (cur := env.cur) (S := S) (strict := false) none k d ρ ds hk (by intro h; cases h) hρ
              (by rw [q1, hlen]) (fun n t' cins couts e hc he => by
                obtain ⟨x1, d', hd'⟩ := hn n t' cins couts hc
                obtain ⟨outs', hy⟩ := q2 n _ e x1 he
                rw [(unique hw hd' hy).2]
                exact hy.loose _)
            rwa [htr, hi, ho] at this
          refine ⟨_, _, rfl, ⟨?_, k1.memo⟩, ?_, ?_, fun _ => by simp⟩
          · intro t' ins' d' outs' hmem
            rcases List.mem_cons.1 hmem with he | hmem
            · cases he
              exact hd
            · exact k1.made _ _ _ _ hmem
          · intro x hx
            exact List.mem_cons_of_mem _ (k2 (h2 hx))
          · intro d' outs' he
            cases he
            exact hd
    · rename_i hu
      obtain ⟨st', a, e', r1, r2, r3, r4⟩ := search_ok hw hs hm scope hg rest st h hl'
      refine ⟨st', a, e', r1, r2, r3, ?_⟩
      rintro ⟨x, hx, hv, hrest⟩
      rcases List.mem_cons.1 hx with rfl | hx
      · exact absurd (usable_iff.2 hv) hu
      · exact r4 ⟨x, hx, hv, hrest⟩

theorem search_made {scope : Option Nat} {t : Nat} {ins : List Ty} {st' : State} {d : Dict} {outs : List Ty} :
    ∀ {l : List (Decl × Nat)} {st : State}, search sub env scope t ins st l = some (st', some (d, outs)) → ((t, ins), d, outs) ∈ st'.made
  | [], st, h => by simp [search] at h
  | (e, k) :: rest, st, h => by
    rw [search] at h
    split at h
    · simp only at h
      split at h
      · cases h
      · exact search_made h
      · split at h
        · cases h
        · exact search_made h
        · cases h
          simp
    · exact search_made h

/-- What is found is noted, unless it was there. -/
theorem application_made {levels : Nat} {stack : List (Nat × List Ty)} {st st' : State} {scope : Option Nat} {t : Nat} {ins : List Ty}
    {d : Dict} {outs : List Ty} (h : application env levels stack st scope t ins = some (st', some (d, outs))) :
    lookup env st scope t ins = some (d, outs) ∨ ((t, ins), d, outs) ∈ st'.made := by
  unfold application at h
  split at h
  · rename_i r hr
    cases h
    exact .inl hr
  · split at h
    · cases h
    · split at h
      · cases h
      · exact .inr (search_made h)

theorem sizeOf_arg {k : Nat} {ds : List Dict} {e : Dict} (h : e ∈ ds) : sizeOf e < sizeOf (Dict.mk k ds) := by
  have := List.sizeOf_lt_of_mem h
  rw [Dict.mk.sizeOf_spec]
  omega

theorem application_ok (hw : World S arity env) : ∀ (levels : Nat) (stack : List (Nat × List Ty)),
    SearchOk env S arity (Surely env S levels stack) (application env levels stack) := by
  intro levels
  induction levels with
  | zero =>
    intro stack st scope t ins h hg
    rw [application]
    split
    · rename_i r hr
      exact ⟨st, _, rfl, h, fun _ hx => hx, (fun d outs he => by cases he; exact lookup_has hw h hr), fun _ => by simp⟩
    · rename_i hr
      have hno : ¬ Surely env S 0 stack st.made scope t ins := by
        rintro ⟨d, outs, hnear, -⟩
        cases hnear with
        | hit _ _ _ _ _ _ hmem => exact lookup_made hmem hr
        | concrete _ _ k d h1 h2 h3 => exact lookup_concrete h1 h2 h3 hr
      split <;> exact ⟨st, none, rfl, h, fun _ hx => hx, (fun _ _ he => by cases he), fun hq => absurd hq hno⟩
  | succ levels ih =>
    intro stack st scope t ins h hg
    rw [application]
    split
    · rename_i r hr
      exact ⟨st, _, rfl, h, fun _ hx => hx, (fun d outs he => by cases he; exact lookup_has hw h hr), fun _ => by simp⟩
    · rename_i hr
      split
      · rename_i hst
        refine ⟨st, none, rfl, h, fun _ hx => hx, (fun _ _ he => by cases he), ?_⟩
        rintro ⟨d, outs, hnear, hd, habove⟩
        exact absurd (habove _ hst d outs hd) (by omega)
      · rename_i hst
        obtain ⟨st', a, e', r1, r2, r3, r4⟩ := search_ok hw (ih ((t, ins) :: stack)) Surely.mono scope hg (blankets env t) st h (by
          intro x hx
          unfold blankets at hx
          rw [List.mem_filter, Bool.and_eq_true, beq_iff_eq] at hx
          exact ⟨mem_ordered.1 hx.1, hx.2.2⟩)
        refine ⟨st', a, e', r1, r2, r3, ?_⟩
        rintro ⟨d, outs, hnear, hd, habove⟩
        cases hnear with
        | hit _ _ _ _ _ _ hmem => exact absurd hr (lookup_made hmem)
        | concrete _ _ k d h1 h2 h3 => exact absurd hr (lookup_concrete h1 h2 h3)
        | intro _ _ k d ρ ds h1 h2 h3 h4 h5 h6 =>
          refine r4 ⟨(d, k), ?_, h2, ρ, h4, rfl, ?_⟩
          · unfold blankets
            rw [List.mem_filter]
            exact ⟨mem_ordered.2 h1, by simp [h3]⟩
          · intro ct cins couts hc
            obtain ⟨n, hn, hget⟩ := List.getElem_of_mem hc
            simp only at hn hget
            have hget' : d.impl.constraints[n]? = some (.haveTrait ct cins couts) := by rw [List.getElem?_eq_getElem hn, hget]
            have he : ds[n]? = some ds[n] := List.getElem?_eq_getElem (by omega)
            have hne := h6 n ct cins couts _ hget' he
            have hsz := sizeOf_arg (k := k) (List.mem_of_getElem? he)
            refine ⟨⟨_, _, hne, hne.has hw h, fun g hgm => ?_⟩, _, hne.has hw h⟩
            rcases List.mem_cons.1 hgm with rfl | hgm
            · intro d' outs' hd'
              rw [← (unique hw hd hd').1]
              exact hsz
            · intro d' outs' hd'
              have := habove g hgm d' outs' hd'
              omega

/-- What the solver remembers is true. -/
theorem Reached.ok (hw : World S arity env) {st : State} (h : Reached S arity env st) : SolverOk env S st := by
  induction h with
  | new => exact ⟨(fun _ _ _ _ h => by cases h), fun _ _ _ _ h => by cases h⟩
  | impl _ hg he ih =>
    obtain ⟨st', a, e, h1, -⟩ := application_ok hw env.levels [] _ none _ _ ih hg
    rw [solveImpl, e] at he
    cases he
    exact h1
  | outputs _ hg he ih =>
    obtain ⟨st', a, e, h1, -⟩ := query_ok (scope := none) (application_ok hw env.levels []) ih hg
    rw [solveOutputs, e] at he
    cases he
    exact h1

/-- What is within reach is found. -/
theorem near_found (hw : World S arity env) {st : State} (h : Reached S arity env st) {d : Dict} {t : Nat} {ins outs : List Ty}
    (hd : Near env S st.made env.levels none d t ins outs) : ∃ st', solveImpl env st t ins = some (st', some (d, outs)) := by
  have hh := hd.has hw (h.ok hw)
  obtain ⟨st', a, e, -, -, h3, h4⟩ := application_ok hw env.levels [] st none t ins (h.ok hw) (hh.plain hw).1
  cases a with
  | none => exact absurd rfl (h4 ⟨d, outs, hd, hh, fun g hg => by cases hg⟩)
  | some r =>
    obtain ⟨d', outs'⟩ := r
    obtain ⟨rfl, rfl⟩ := unique hw hh (h3 d' outs' rfl)
    exact ⟨st', e⟩

end Ferlium.Resolve
