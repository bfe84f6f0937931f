import Verif.Proofs.ResolveSound

/-!
The search step by step, for implementations of a simple form.
-/
namespace Ferlium.Resolve
open Ferlium.Unify Ferlium.Coherence

variable {S : Head → List (Option Nat) → Prop} {arity : Nat → Nat × Nat} {env : Env}

/-- Trying an implementation without constraints whose outputs have no other variables than the inputs. -/
theorem match_none (hS : Tidy S) (sub : Search) (pick : Nat → Nat → Bool) (scope : Option Nat) (st : State) {i : Impl}
    (hf : Formed S arity i) {ρ : Nat → Ty} (hρ : ∀ v, Plain S (ρ v)) (hc : i.constraints = [])
    (ho : ∀ u ∈ i.outputs, ∀ v, u.contains v = true → ∃ x ∈ i.inputs, x.contains v = true) :
    matchBlanket sub pick scope st i (i.inputs.map (·.subst ρ)) = some (st, some (i.outputs.map (·.subst ρ), [])) := by
  have hpl : ∀ u ∈ i.inputs.map (·.subst ρ), Plain S u := by
    intro u hu
    obtain ⟨x, hx, rfl⟩ := List.mem_map.1 hu
    exact Plain.subst hρ (hf.ok.inputs x hx).2 (hf.inputs.2 x hx)
  obtain ⟨r, hr, hr1, hr2⟩ := solve_lists (a := i.inputs) (b := i.inputs.map (·.subst ρ)) hS pick (TableOk.fresh (S := S) i.vars) (by simp)
    (fun u hu => ⟨hf.ok.inputs u hu, hf.inputs.2 u hu⟩)
    (fun u hu => ⟨⟨(fun v hv => by rw [(hpl u hu).1 v] at hv; cases hv), (hpl u hu).2.2⟩, (hpl u hu).2.1⟩)
  have hfix : ∀ ρ' : Nat → Ty, (i.inputs.map (·.subst ρ)).map (·.subst ρ') = i.inputs.map (·.subst ρ) :=
    fun ρ' => map_closed _ (all_constant.2 fun u hu => (hpl u hu).1) ρ'
  obtain ⟨tab, rfl, -⟩ := hr2 ρ (fresh_respects _ ρ) (by rw [hfix])
  obtain ⟨θ, ht, -, heq⟩ := hr1 tab rfl
  have hθ := heq θ ht.tri.respects ht.good
  rw [hfix] at hθ
  unfold matchBlanket
  rw [hr]
  simp only [hc, List.length_nil, List.range_zero, List.zip_nil_right]
  rw [normPlaces_eq ht (by simp)]
  simp only [List.map_nil, rounds, round, if_true]
  rw [mapM_normalize (S := S) ht.tri i.outputs (by rw [ht.length]; exact hf.ok.outputs)]
  simp only [List.mergeSort_nil]
  rw [subst_congr_list (ρ := θ) (ρ' := ρ) fun u hu v hv => by
    obtain ⟨x, hx, hxv⟩ := ho u hu v hv
    exact subst_inj x (subst_inj_list hθ hx) v hxv]

/-- Trying an implementation with one constraint without outputs. -/
theorem match_one (hS : Tidy S) (sub : Search) (pick : Nat → Nat → Bool) (scope : Option Nat) (st : State) {i : Impl}
    (hf : Formed S arity i) {ρ : Nat → Ty} (hρ : ∀ v, Plain S (ρ v)) {t : Nat} {cins : List Ty} (hc : i.constraints = [.haveTrait t cins []])
    (ho : ∀ u ∈ cins ++ i.outputs, ∀ v, u.contains v = true → ∃ x ∈ i.inputs, x.contains v = true) :
    matchBlanket sub pick scope st i (i.inputs.map (·.subst ρ)) =
      match query sub st scope t (cins.map (·.subst ρ)) with
      | none => none
      | some (st, none) => some (st, none)
      | some (st, some _) => some (st, some (i.outputs.map (·.subst ρ), [(0, t, cins.map (·.subst ρ))])) := by
  have hpl : ∀ u ∈ i.inputs.map (·.subst ρ), Plain S u := by
    intro u hu
    obtain ⟨x, hx, rfl⟩ := List.mem_map.1 hu
    exact Plain.subst hρ (hf.ok.inputs x hx).2 (hf.inputs.2 x hx)
  obtain ⟨r, hr, hr1, hr2⟩ := solve_lists (a := i.inputs) (b := i.inputs.map (·.subst ρ)) hS pick (TableOk.fresh (S := S) i.vars) (by simp)
    (fun u hu => ⟨hf.ok.inputs u hu, hf.inputs.2 u hu⟩)
    (fun u hu => ⟨⟨(fun v hv => by rw [(hpl u hu).1 v] at hv; cases hv), (hpl u hu).2.2⟩, (hpl u hu).2.1⟩)
  have hfix : ∀ ρ' : Nat → Ty, (i.inputs.map (·.subst ρ)).map (·.subst ρ') = i.inputs.map (·.subst ρ) :=
    fun ρ' => map_closed _ (all_constant.2 fun u hu => (hpl u hu).1) ρ'
  obtain ⟨tab, rfl, -⟩ := hr2 ρ (fresh_respects _ ρ) (by rw [hfix])
  obtain ⟨θ, ht, -, heq⟩ := hr1 tab rfl
  have hθ := heq θ ht.tri.respects ht.good
  rw [hfix] at hθ
  have hag : ∀ {l : List Ty}, (∀ u ∈ l, u ∈ cins ++ i.outputs) → l.map (·.subst θ) = l.map (·.subst ρ) := fun hl =>
    subst_congr_list fun u hu v hv => by
      obtain ⟨x, hx, hxv⟩ := ho u (hl u hu) v hv
      exact subst_inj x (subst_inj_list hθ hx) v hxv
  have hcl : (cins.map (·.subst ρ)).all (·.isConstant) = true := all_constant.2 fun u hu => by
    obtain ⟨x, hx, rfl⟩ := List.mem_map.1 hu
    exact closed_subst.2 fun v _ => (hρ v).1
  have hok := hf.ok.constraints (.haveTrait t cins []) (by simp [hc])
  have hok' := constraintOk_inst ht hok
  rw [Constraint.inst, List.map_nil, hag (fun u hu => List.mem_append_left _ hu)] at hok'
  unfold matchBlanket
  rw [hr]
  simp only [hc, List.length_cons, List.length_nil, List.range_succ, List.range_zero, List.nil_append, List.zip_cons_cons, List.zip_nil_right]
  rw [normPlaces_eq ht (by simpa using hok)]
  simp only [List.map_cons, List.map_nil, Constraint.inst, hag (l := cins) (fun u hu => List.mem_append_left _ hu)]
  rw [rounds, round, normConstraint_eq ht hok', Constraint.inst, map_closed _ hcl]
  simp only [hcl, if_true, List.map_nil, List.zip_nil_right, Unify.solve, round]
  cases query sub st scope t (cins.map (·.subst ρ)) with
  | none => rfl
  | some r =>
    obtain ⟨st', a⟩ := r
    cases a with
    | none => rfl
    | some solved =>
      simp only [if_true]
      rw [mapM_normalize (S := S) ht.tri i.outputs (by rw [ht.length]; exact hf.ok.outputs)]
      simp only [List.mergeSort_singleton]
      rw [hag (fun u hu => List.mem_append_right _ hu)]

end Ferlium.Resolve
