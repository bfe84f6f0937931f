import Verif.Proofs.ResolveRound

/-!
All rounds over the constraints of an implementation, and the dictionaries for them.
-/
namespace Ferlium.Resolve
open Ferlium.Unify Ferlium.Coherence

variable {S : Head → List (Option Nat) → Prop} {arity : Nat → Nat × Nat} {env : Env}
  {Sure : Made → Option Nat → Nat → List Ty → Prop} {sub : Search}

/-- What is known of the inputs. -/
def InputsOk (S : Head → List (Option Nat) → Prop) (i : Impl) (ins : List Ty) (tab : Table) : Prop :=
  ∀ ρ, Respects tab ρ → Good S ρ → i.inputs.map (·.subst ρ) = ins

theorem InputsOk.mono {i : Impl} {ins : List Ty} {tab tab' : Table} (h : InputsOk S i ins tab)
    (hr : ∀ ρ, Respects tab' ρ → Respects tab ρ) : InputsOk S i ins tab' := fun ρ hρ hg => h ρ (hr ρ hρ) hg

/-- If no constraint that remains has known inputs, all that follows from the inputs is known. -/
theorem known_closed (hw : World S arity env) {i : Impl} {ins : List Ty} {tab : Table} {θ : Nat → Ty} {l : List Place}
    {done : List Need} (ht : TableOk S i.vars tab θ) (hin : InputsOk S i ins tab) (hg : ∀ u ∈ ins, Plain S u)
    (hp : PlacesOk S arity i tab l) (hd : NeedsOk env S i tab done)
    (hall : (l.map (·.1) ++ done.map (·.1)).Perm (List.range i.constraints.length))
    (hstuck : ∀ p ∈ l, ∀ t ins outs, p.2.inst θ = .haveTrait t ins outs → ins.all (·.isConstant) = false) {v : Nat}
    (hv : Known i v) : Closed (θ v) := by
  induction hv with
  | input v t ht' hv =>
    have h := hin θ ht.tri.respects ht.good
    have : t.subst θ ∈ ins := by rw [← h]; exact List.mem_map.2 ⟨t, ht', rfl⟩
    exact closed_subst.1 (hg _ this).1 v hv
  | output v t trait cins couts hc ht' hv _ ih =>
    obtain ⟨n, hn, hc'⟩ := List.getElem_of_mem hc
    have hc' : i.constraints[n]? = some (.haveTrait trait cins couts) := by rw [List.getElem?_eq_getElem hn, hc']
    have hmem := hall.mem_iff.2 (List.mem_range.2 hn)
    rcases List.mem_append.1 hmem with hm | hm
    · obtain ⟨p, hpl, rfl⟩ := List.mem_map.1 hm
      obtain ⟨c, h1, -, -, h4⟩ := hp p hpl
      rw [hc'] at h1
      cases h1
      have he := h4 θ ht.tri.respects
      rw [Constraint.inst.eq_1 (ins := cins)] at he
      have := hstuck p hpl _ _ _ he
      rw [Bool.eq_false_iff] at this
      exact absurd (all_constant.2 fun u hu => by
        obtain ⟨x, hx, rfl⟩ := List.mem_map.1 hu
        exact closed_subst.2 fun w hw => ih x hx w hw) this
    · obtain ⟨p, hpl, rfl⟩ := List.mem_map.1 hm
      obtain ⟨ins', outs', outs'', d, h1, h2, h3⟩ := hd p hpl
      rw [hc'] at h1
      cases h1
      have := (h3 θ ht.tri.respects ht.good).2
      have hx : t.subst θ ∈ outs'' := by rw [← this]; exact List.mem_map.2 ⟨t, ht', rfl⟩
      exact closed_subst.1 ((h2.plain hw).2.2 _ hx).1 v hv

theorem rounds_ok (hw : World S arity env) (hs : SearchOk env S arity Sure sub)
    (hm : ∀ m m' scope t ins, m ⊆ m' → Sure m scope t ins → Sure m' scope t ins) (pick : Nat → Nat → Bool)
    (scope : Option Nat) {i : Impl} (hf : Fixed i) {ins : List Ty} (hg : ∀ u ∈ ins, Plain S u) :
    ∀ (fuel : Nat) (l : List Place) (st : State) (tab : Table) (θ : Nat → Ty) (done : List Need), SolverOk env S st →
      TableOk S i.vars tab θ → PlacesOk S arity i tab l → l.map (fun p => (p.1, p.2.inst θ)) = l → NeedsOk env S i tab done →
      (l.map (·.1) ++ done.map (·.1)).Perm (List.range i.constraints.length) → InputsOk S i ins tab → l.length < fuel →
    ∃ st' a, rounds sub pick scope fuel st tab l = some (st', a) ∧ SolverOk env S st' ∧ st.made ⊆ st'.made ∧
      (∀ tab' needs, a = some (tab', needs) → ∃ θ', TableOk S i.vars tab' θ' ∧ (∀ ρ, Respects tab' ρ → Respects tab ρ) ∧
        NeedsOk env S i tab' (done ++ needs) ∧ ((done ++ needs).map (·.1)).Perm (List.range i.constraints.length)) ∧
      (∀ ρ, (∀ v, Plain S (ρ v)) → Respects tab ρ → Solvable env S Sure i st.made scope ρ →
        ∃ tab' needs, a = some (tab', needs) ∧ Respects tab' ρ)
  | 0, _, _, _, _, _, _, _, _, _, _, _, _, hlt => absurd hlt (by omega)
  | fuel + 1, l, st, tab, θ, done, h, ht, hp, hn, hd, hall, hin, hlt => by
    obtain ⟨st1, a1, e1, h1, h2, h3, h4⟩ := round_ok hw hs hm pick scope i l st tab θ h ht hp
    rw [rounds, e1]
    cases a1 with
    | none =>
      refine ⟨st1, none, rfl, h1, h2, (fun _ _ he => by cases he), fun ρ hpl hρ hsol => ?_⟩
      obtain ⟨_, _, _, hx, _⟩ := h4 ρ hpl hρ hsol
      cases hx
    | some r =>
      obtain ⟨tab1, still, needs⟩ := r
      obtain ⟨θ1, ht1, hre, hp1, hd1, hperm, hnone⟩ := h3 _ _ _ rfl
      have hd2 : NeedsOk env S i tab1 (done ++ needs) := by
        intro p hp
        rcases List.mem_append.1 hp with hp | hp
        · exact hd.mono hre p hp
        · exact hd1 p hp
      have hall' : (still.map (·.1) ++ (done ++ needs).map (·.1)).Perm (List.range i.constraints.length) := by
        refine List.Perm.trans ?_ hall
        rw [List.map_append]
        refine List.Perm.trans ?_ (hperm.append_right _)
        rw [List.append_assoc]
        exact List.Perm.append_left _ List.perm_append_comm
      simp only
      split
      · rename_i hst
        subst hst
        refine ⟨st1, _, rfl, h1, h2, ?_, ?_⟩
        · rintro tab' needs' he
          cases he
          exact ⟨θ1, ht1, hre, hd2, by simpa using hall'⟩
        · intro ρ hpl hρ hsol
          obtain ⟨_, _, _, hx, hρ'⟩ := h4 ρ hpl hρ hsol
          cases hx
          exact ⟨_, _, rfl, hρ'⟩
      · rename_i hst
        rw [normPlaces_eq ht1 (fun p hpp => by obtain ⟨_, _, h, _⟩ := hp1 p hpp; exact h)]
        simp only
        have hlen : still.length + needs.length = l.length := by simpa using hperm.length_eq
        split
        · rename_i hsame
          -- never: something that is known was not found
          exfalso
          have hnil : needs = [] := by
            have := congrArg List.length hsame
            simp only [List.length_map] at this
            exact List.length_eq_zero_iff.1 (by omega)
          obtain ⟨rfl, hstill, hstuck⟩ := hnone hnil
          rw [hn] at hstill
          subst hstill
          have hstuck' : ∀ p ∈ still, ∀ t ins outs, p.2.inst θ = .haveTrait t ins outs → ins.all (·.isConstant) = false := by
            intro p hpp t ins outs he
            have hmem : (p.1, p.2.inst θ) ∈ still := by
              rw [← hn]; exact List.mem_map.2 ⟨p, hpp, rfl⟩
            exact hstuck _ hmem t ins outs he
          cases still with
          | nil => exact hst rfl
          | cons p rest =>
            obtain ⟨c, k1, k2, k3, k4⟩ := hp p (by simp)
            have he := k4 θ ht.tri.respects
            cases hpc : p.2 with
            | other => rw [hpc] at k3; exact k3
            | haveTrait t pins pouts =>
              rw [hpc, Constraint.inst] at he
              cases c with
              | other => rw [Constraint.inst] at he; cases he
              | haveTrait t' cins couts =>
                rw [Constraint.inst] at he
                injection he with _ he _
                have := hstuck' p (by simp) t _ _ (by rw [hpc, Constraint.inst])
                rw [Bool.eq_false_iff] at this
                refine this (all_constant.2 fun u hu => ?_)
                rw [he] at hu
                obtain ⟨x, hx, rfl⟩ := List.mem_map.1 hu
                exact closed_subst.2 fun w hw' => known_closed hw ht hin hg hp hd hall hstuck'
                  (hf.constraints _ _ _ (List.mem_of_getElem? k1) x hx w hw')
        · rename_i hdiff
          have hlt' : still.length < fuel := by
            have : needs ≠ [] := by
              intro hnil
              obtain ⟨rfl, hstill, -⟩ := hnone hnil
              apply hdiff
              rw [hn] at hstill
              subst hstill
              refine Eq.trans (List.map_congr_left fun p hpp => ?_) hn
              obtain ⟨_, -, hc, -⟩ := hp p hpp
              have := (normConstraint_eq ht1 hc).symm.trans (normConstraint_eq ht hc)
              injection this with this
              rw [this]
            have := List.length_pos_of_ne_nil this
            omega
          obtain ⟨st2, a2, e2, k1, k2, k3, k4⟩ := rounds_ok hw hs hm pick scope hf hg fuel (still.map fun p => (p.1, p.2.inst θ1)) st1
            tab1 θ1 (done ++ needs) h1 ht1 (hp1.norm ht1) (by
              rw [List.map_map]
              refine List.map_congr_left fun p _ => ?_
              simp only [Function.comp]
              rw [inst_inst ht1.tri ht1.tri.respects]) hd2 (by simpa [Function.comp_def] using hall') (hin.mono hre) (by simpa using hlt')
          rw [e2]
          cases a2 with
          | none =>
            refine ⟨st2, none, rfl, k1, List.Subset.trans h2 k2, (fun _ _ he => by cases he), fun ρ hpl hρ hsol => ?_⟩
            obtain ⟨_, _, _, hx, hρ'⟩ := h4 ρ hpl hρ hsol
            cases hx
            obtain ⟨_, _, hx, _⟩ := k4 ρ hpl hρ' fun t ins outs hc => ⟨hm _ _ _ _ _ h2 (hsol t ins outs hc).1, (hsol t ins outs hc).2⟩
            cases hx
          | some r =>
            obtain ⟨tab2, needs'⟩ := r
            refine ⟨st2, _, rfl, k1, List.Subset.trans h2 k2, ?_, ?_⟩
            · rintro tab' needs'' he
              cases he
              obtain ⟨θ2, q1, q2, q3, q4⟩ := k3 _ _ rfl
              exact ⟨θ2, q1, fun ρ hρ => hre ρ (q2 ρ hρ), by rw [← List.append_assoc]; exact q3, by rw [← List.append_assoc]; exact q4⟩
            · intro ρ hpl hρ hsol
              obtain ⟨_, _, _, hx, hρ'⟩ := h4 ρ hpl hρ hsol
              cases hx
              obtain ⟨_, _, hx, hρ''⟩ := k4 ρ hpl hρ' fun t ins outs hc => ⟨hm _ _ _ _ _ h2 (hsol t ins outs hc).1, (hsol t ins outs hc).2⟩
              cases hx
              exact ⟨_, _, rfl, hρ''⟩

theorem ground_plain (hw : World S arity env) {t : Ty} (hs : t.Sorted S) (hn : t.NoNever) : Plain S (t.subst ground) := by
  refine ⟨ground_closed t, noNever_subst (fun w => ?_) _ hn, Ty.sorted_subst _ hs fun w _ => ?_⟩
  · rw [ground, int, Ty.NoNever, Args.NoNever]
    trivial
  · rw [ground, int, Ty.Sorted, Args.Sorted, Args.names]
    exact ⟨hw.int, trivial⟩

theorem sorted_range {l : List Need} {n : Nat} (h : (l.map (·.1)).Perm (List.range n)) :
    (l.mergeSort fun a b => a.1 ≤ b.1).map (·.1) = List.range n := by
  have hp : ((l.mergeSort fun a b => a.1 ≤ b.1).map (·.1)).Perm (List.range n) := ((List.mergeSort_perm l _).map _).trans h
  have hs := List.pairwise_mergeSort (le := fun a b : Need => decide (a.1 ≤ b.1)) (by simp; omega) (by simp; omega) l
  refine hp.eq_of_pairwise (le := (· ≤ ·)) (fun a b _ _ h1 h2 => by omega) ?_ (List.pairwise_lt_range.imp Nat.le_of_lt)
  rw [List.pairwise_map]
  exact hs.imp (by simp)

theorem places_start {i : Impl} : ∀ p ∈ (List.range i.constraints.length).zip i.constraints, i.constraints[p.1]? = some p.2 := by
  intro p hp
  obtain ⟨n, hn, rfl⟩ := List.getElem_of_mem hp
  simp at hn
  simp [hn]

theorem matchBlanket_ok (hw : World S arity env) (hs : SearchOk env S arity Sure sub)
    (hm : ∀ m m' scope t ins, m ⊆ m' → Sure m scope t ins → Sure m' scope t ins) (pick : Nat → Nat → Bool)
    (scope : Option Nat) {i : Impl} (hf : Formed S arity i) {ins : List Ty} (hg : Goal S arity i.trait ins) {st : State}
    (h : SolverOk env S st) : ∃ st' a, matchBlanket sub pick scope st i ins = some (st', a) ∧ SolverOk env S st' ∧ st.made ⊆ st'.made ∧
      (∀ outs needs, a = some (outs, needs) → ∃ ρ, (∀ v, Plain S (ρ v)) ∧ i.inputs.map (·.subst ρ) = ins ∧ i.outputs.map (·.subst ρ) = outs ∧
        needs.length = i.constraints.length ∧ ∀ (n t : Nat) (cins couts : List Ty), i.constraints[n]? = some (.haveTrait t cins couts) →
          needs[n]? = some (n, t, cins.map (·.subst ρ)) ∧ ∃ d, Has env S d t (cins.map (·.subst ρ)) (couts.map (·.subst ρ))) ∧
      ∀ ρ, (∀ v, Plain S (ρ v)) → i.inputs.map (·.subst ρ) = ins → Solvable env S Sure i st.made scope ρ →
        ∃ outs needs, a = some (outs, needs) ∧ ∀ p ∈ needs, Sure st.made scope p.2.1 p.2.2 := by
  have hfix : ∀ ρ : Nat → Ty, ins.map (·.subst ρ) = ins := fun ρ => map_closed _ (all_constant.2 fun u hu => (hg.2 u hu).1) ρ
  obtain ⟨r, hr, hr1, hr2⟩ := solve_lists (a := i.inputs) (b := ins) hw.tidy pick (TableOk.fresh (S := S) i.vars) (by rw [hf.inputs.1, hg.1])
    (fun u hu => ⟨hf.ok.inputs u hu, hf.inputs.2 u hu⟩)
    (fun u hu => ⟨⟨(fun v hv => by rw [(hg.2 u hu).1 v] at hv; cases hv), (hg.2 u hu).2.2⟩, (hg.2 u hu).2.1⟩)
  unfold matchBlanket
  rw [hr]
  cases r with
  | error err =>
    refine ⟨st, none, rfl, h, fun _ hx => hx, (fun _ _ he => by cases he), fun ρ hpl he hsol => ?_⟩
    obtain ⟨_, hx, _⟩ := hr2 ρ (fresh_respects _ ρ) (by rw [he, hfix])
    cases hx
  | ok tab =>
    obtain ⟨θ, ht, -, heq⟩ := hr1 tab rfl
    have hin : InputsOk S i ins tab := fun ρ hρ hgd => by rw [heq ρ hρ hgd, hfix]
    have hst : ∀ p ∈ (List.range i.constraints.length).zip i.constraints, ConstraintOk S i.vars p.2 :=
      fun p hp => hf.ok.constraints _ (List.mem_of_getElem? (places_start p hp))
    have hp0 : PlacesOk S arity i tab ((List.range i.constraints.length).zip i.constraints) := by
      intro p hp
      have hc := places_start p hp
      obtain ⟨t, cins, couts, he, h1, h2⟩ := hf.constraints _ (List.mem_of_getElem? hc)
      exact ⟨p.2, hc, hst p hp, by rw [he]; exact ⟨h1, h2⟩, fun _ _ => rfl⟩
    obtain ⟨st1, a1, e1, k1, k2, k3, k4⟩ := rounds_ok hw hs hm pick scope hf.fixed hg.2 (i.constraints.length + 1) _ st tab θ [] h ht
      (hp0.norm ht) (by
        rw [List.map_map]
        refine List.map_congr_left fun p _ => ?_
        simp only [Function.comp]
        rw [inst_inst ht.tri ht.tri.respects]) (fun p hp => by cases hp)
      (by rw [List.map_map, List.map_nil, List.append_nil]
          have : (((fun x : Place => x.1) ∘ fun p : Place => (p.1, p.2.inst θ)) : Place → Nat) = Prod.fst := rfl
          rw [this, List.map_fst_zip (by simp)]) hin (by simp)
    simp only
    rw [normPlaces_eq ht hst]
    simp only
    rw [e1]
    have hsolv : ∀ ρ, (∀ v, Plain S (ρ v)) → i.inputs.map (·.subst ρ) = ins → Respects tab ρ := by
      intro ρ hpl he
      obtain ⟨tab', hx, hρ⟩ := hr2 ρ (fresh_respects _ ρ) (by rw [he, hfix])
      cases hx
      exact hρ
    cases a1 with
    | none =>
      refine ⟨st1, none, rfl, k1, k2, (fun _ _ he => by cases he), fun ρ hpl he hsol => ?_⟩
      obtain ⟨_, _, hx, _⟩ := k4 ρ hpl (hsolv ρ hpl he) hsol
      cases hx
    | some r =>
      obtain ⟨tab1, needs⟩ := r
      obtain ⟨θ1, ht1, hre, hn, hperm⟩ := k3 _ _ rfl
      rw [List.nil_append] at hn hperm
      simp only
      rw [mapM_normalize (S := S) ht1.tri i.outputs (by rw [ht1.length]; exact hf.ok.outputs)]
      refine ⟨st1, _, rfl, k1, k2, ?_, ?_⟩
      · rintro outs' needs' he
        cases he
        have hsub : ∀ t : Ty, t.subst (fun v => (θ1 v).subst ground) = (t.subst θ1).subst ground := fun t => by rw [Ty.subst_subst]
        have hpl : ∀ v, Plain S ((θ1 v).subst ground) := fun v => ground_plain hw (ht1.good v).2 (ht1.good v).1
        have hres : Respects tab1 fun v => (θ1 v).subst ground := by
          intro v t htab
          rw [hsub]
          simp only
          rw [ht1.tri.bound v t htab]
        have hrange := sorted_range hperm
        refine ⟨fun v => (θ1 v).subst ground, hpl, hin _ (hre _ hres) (Plain.good hpl), ?_, ?_, ?_⟩
        · refine List.map_congr_left fun t htm => ?_
          rw [hsub]
          refine Closed.subst (closed_subst.2 fun v hv => ?_) _
          exact known_closed (l := []) hw ht1 (hin.mono hre) hg.2 (fun p hp => by cases hp) hn
            (by simpa using hperm) (fun p hp => by cases hp) (hf.fixed.outputs t htm v hv)
        · have := congrArg List.length hrange
          simpa using this
        · intro n t cins couts hc
          have hlt : n < i.constraints.length := (List.getElem?_eq_some_iff.1 hc).1
          have hget := congrArg (·[n]?) hrange
          simp only [List.getElem?_map, List.getElem?_range hlt, Option.map_eq_some_iff] at hget
          obtain ⟨p, hp, hpn⟩ := hget
          have hmem : p ∈ needs := List.mem_mergeSort.1 (List.mem_of_getElem? hp)
          obtain ⟨ins', outs', outs'', d, q1, q2, q3⟩ := hn p hmem
          rw [hpn, hc] at q1
          injection q1 with q1
          injection q1 with q1 q1' q1''
          subst q1' q1''
          obtain ⟨r1, r2⟩ := q3 _ hres (Plain.good hpl)
          refine ⟨?_, d, ?_⟩
          · rw [hp, ← hpn, q1, r1]
          · rw [q1, r1, r2]; exact q2
      · intro ρ hpl he hsol
        obtain ⟨_, _, hx, hρ'⟩ := k4 ρ hpl (hsolv ρ hpl he) hsol
        cases hx
        refine ⟨_, _, rfl, fun p hp => ?_⟩
        obtain ⟨ins', outs', outs'', d, q1, q2, q3⟩ := hn p (List.mem_mergeSort.1 hp)
        rw [← (q3 ρ hρ' (Plain.good hpl)).1]
        exact (hsol _ _ _ (List.mem_of_getElem? q1)).1

theorem materialize_ok (hs : SearchOk env S arity Sure sub)
    (hm : ∀ m m' scope t ins, m ⊆ m' → Sure m scope t ins → Sure m' scope t ins) (scope : Option Nat) :
    ∀ (needs : List Need) (st : State), SolverOk env S st → (∀ p ∈ needs, Goal S arity p.2.1 p.2.2) →
    ∃ st' a, materialize sub scope st needs = some (st', a) ∧ SolverOk env S st' ∧ st.made ⊆ st'.made ∧
      (∀ ds, a = some ds → ds.length = needs.length ∧ ∀ (n : Nat) (p : Need) (e : Dict), needs[n]? = some p → ds[n]? = some e →
        ∃ outs, Has env S e p.2.1 p.2.2 outs) ∧
      ((∀ p ∈ needs, Sure st.made scope p.2.1 p.2.2) → a ≠ none)
  | [], st, h, _ => ⟨st, _, rfl, h, fun _ hx => hx, (fun ds he => by cases he; exact ⟨rfl, fun n p e hx => by simp at hx⟩), fun _ => by simp⟩
  | (m, t, ins) :: rest, st, h, hg => by
    obtain ⟨st1, a1, e1, h1, h2, h3, h4⟩ := hs st scope t ins h (hg (m, t, ins) (by simp))
    rw [materialize, e1]
    cases a1 with
    | none => exact ⟨st1, none, rfl, h1, h2, (fun _ he => by cases he), fun hq => absurd rfl (h4 (hq (m, t, ins) (by simp)))⟩
    | some r =>
      obtain ⟨d, outs⟩ := r
      obtain ⟨st2, a2, e2, k1, k2, k3, k4⟩ := materialize_ok hs hm scope rest st1 h1 fun p hp => hg p (by simp [hp])
      simp only
      rw [e2]
      cases a2 with
      | none =>
        exact ⟨st2, none, rfl, k1, List.Subset.trans h2 k2, (fun _ he => by cases he),
          fun hq => absurd rfl (k4 fun p hp => hm _ _ _ _ _ h2 (hq p (by simp [hp])))⟩
      | some ds =>
        refine ⟨st2, _, rfl, k1, List.Subset.trans h2 k2, ?_, fun _ => by simp⟩
        intro ds' he
        cases he
        obtain ⟨q1, q2⟩ := k3 ds rfl
        refine ⟨by simp [q1], fun n p e hp hd => ?_⟩
        cases n with
        | zero =>
          simp only [List.getElem?_cons_zero, Option.some.injEq] at hp hd
          subst hp hd
          exact ⟨outs, h3 d outs rfl⟩
        | succ n =>
          rw [List.getElem?_cons_succ] at hp hd
          exact q2 n p e hp hd

end Ferlium.Resolve
