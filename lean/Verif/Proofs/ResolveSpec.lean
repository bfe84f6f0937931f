import Verif.Model.Resolve
import Verif.Props.Coherence

/-!
What it means that types have a trait, independently of the search.
-/
namespace Ferlium.Resolve
open Ferlium.Unify Ferlium.Coherence

/-- A type as a value has it: without variables, without `never`, and made as `S` says. -/
def Plain (S : Head → List (Option Nat) → Prop) (t : Ty) : Prop := Closed t ∧ t.NoNever ∧ t.Sorted S

/-- The implementation may be used in the module `cur` when the constraints of an implementation of the module `scope` are at
issue: it is public, or of one of the two modules. -/
def Visible (cur : Nat) (scope : Option Nat) (d : Decl) : Prop := d.pub = true ∨ d.home = cur ∨ scope = some d.home

/-- Whose constraints are at issue next. -/
def within (cur : Nat) (d : Decl) : Option Nat := if d.home = cur then none else some d.home

/-- The dictionary shows that the types `ins` have the trait `t` with the given outputs: its implementation, for some choice of
its variables, is one for these types, and its arguments show its constraints.  If `strict`, only with implementations that may
be used. -/
inductive Gives (decls : List Decl) (cur : Nat) (S : Head → List (Option Nat) → Prop) (strict : Bool) :
    Option Nat → Dict → Nat → List Ty → List Ty → Prop
  | intro (scope : Option Nat) (k : Nat) (d : Decl) (ρ : Nat → Ty) (ds : List Dict) : decls[k]? = some d →
      (strict = true → Visible cur scope d) → (∀ v, Plain S (ρ v)) → ds.length = d.impl.constraints.length →
      (∀ (n t : Nat) (ins outs : List Ty) (e : Dict), d.impl.constraints[n]? = some (.haveTrait t ins outs) → ds[n]? = some e →
        Gives decls cur S strict (within cur d) e t (ins.map (·.subst ρ)) (outs.map (·.subst ρ))) →
      Gives decls cur S strict scope (.mk k ds) d.impl.trait (d.impl.inputs.map (·.subst ρ)) (d.impl.outputs.map (·.subst ρ))

/-- The dictionary is nested at most so deep. -/
inductive Deep : Nat → Dict → Prop
  | intro (n k : Nat) (ds : List Dict) : (∀ d ∈ ds, Deep n d) → Deep (n + 1) (.mk k ds)

/-- What follows about the variables of an implementation from the inputs: those of the inputs are known, and with the inputs of
a constraint those of its outputs. -/
inductive Known (i : Impl) : Nat → Prop
  | input (v : Nat) (t : Ty) : t ∈ i.inputs → t.contains v = true → Known i v
  | output (v : Nat) (t : Ty) (trait : Nat) (ins outs : List Ty) : .haveTrait trait ins outs ∈ i.constraints → t ∈ outs →
      t.contains v = true → (∀ u ∈ ins, ∀ w, u.contains w = true → Known i w) → Known i v

/-- The inputs determine the outputs and the constraints. -/
structure Fixed (i : Impl) : Prop where
  outputs : ∀ t ∈ i.outputs, ∀ v, t.contains v = true → Known i v
  constraints : ∀ trait ins outs, .haveTrait trait ins outs ∈ i.constraints → ∀ t ∈ ins, ∀ v, t.contains v = true → Known i v

/-- The implementation is written as the trait says, with constraints about traits only, and without `never`. -/
structure Formed (S : Head → List (Option Nat) → Prop) (arity : Nat → Nat × Nat) (i : Impl) : Prop where
  ok : ImplOk S i
  fixed : Fixed i
  inputs : i.inputs.length = (arity i.trait).1 ∧ ∀ t ∈ i.inputs, t.NoNever
  outputs : i.outputs.length = (arity i.trait).2 ∧ ∀ t ∈ i.outputs, t.NoNever
  constraints : ∀ c ∈ i.constraints, ∃ t ins outs, c = .haveTrait t ins outs ∧ (ins.length = (arity t).1 ∧ ∀ t ∈ ins, t.NoNever) ∧
    outs.length = (arity t).2 ∧ ∀ t ∈ outs, t.NoNever

/-- What is assumed of all implementations: they are well formed, and at most one of them applies to given inputs. -/
structure World (S : Head → List (Option Nat) → Prop) (arity : Nat → Nat × Nat) (env : Env) : Prop where
  tidy : Tidy S
  int : S (.native 0) []
  formed : ∀ d ∈ env.decls, Formed S arity d.impl
  one : ∀ k ds k' ds' t ins outs outs', Gives env.decls env.cur S false none (.mk k ds) t ins outs →
    Gives env.decls env.cur S false none (.mk k' ds') t ins outs' → k = k'

/-- The types may be asked for. -/
def Goal (S : Head → List (Option Nat) → Prop) (arity : Nat → Nat × Nat) (t : Nat) (ins : List Ty) : Prop :=
  ins.length = (arity t).1 ∧ ∀ u ∈ ins, Plain S u

/-- What the solver can be after any requests. -/
inductive Reached (S : Head → List (Option Nat) → Prop) (arity : Nat → Nat × Nat) (env : Env) : State → Prop
  | new : Reached S arity env .new
  | impl {st st' t ins r} : Reached S arity env st → Goal S arity t ins → solveImpl env st t ins = some (st', r) →
      Reached S arity env st'
  | outputs {st st' t ins r} : Reached S arity env st → Goal S arity t ins → solveOutputs env st t ins = some (st', r) →
      Reached S arity env st'

variable {decls : List Decl} {cur : Nat} {S : Head → List (Option Nat) → Prop} {strict : Bool}

/-- What there is if types have a trait. -/
theorem Gives.parts {scope : Option Nat} {dict : Dict} {t : Nat} {ins outs : List Ty} (h : Gives decls cur S strict scope dict t ins outs) :
    ∃ k d ρ ds, dict = .mk k ds ∧ decls[k]? = some d ∧ (strict = true → Visible cur scope d) ∧ d.impl.trait = t ∧
      d.impl.inputs.map (·.subst ρ) = ins ∧ ∀ (n t : Nat) (ins outs : List Ty) (e : Dict), d.impl.constraints[n]? = some (.haveTrait t ins outs) →
        ds[n]? = some e → Gives decls cur S strict (within cur d) e t (ins.map (·.subst ρ)) (outs.map (·.subst ρ)) := by
  cases h with
  | intro _ k d ρ ds h1 h2 _ _ h5 => exact ⟨k, d, ρ, ds, rfl, h1, h2, rfl, rfl, h5⟩

/-- Without regard to visibility the scope does not matter. -/
theorem Gives.loose {scope : Option Nat} {d : Dict} {t : Nat} {ins outs : List Ty} (h : Gives decls cur S strict scope d t ins outs) :
    ∀ scope', Gives decls cur S false scope' d t ins outs := by
  induction h with
  | intro scope k d ρ ds h1 _ h3 h4 _ ih =>
    intro scope'
    exact .intro scope' k d ρ ds h1 (by intro h; cases h) h3 h4 fun n t ins outs e hc he => ih n t ins outs e hc he _

/-- If everything is public, nothing else matters. -/
theorem Gives.public {scope : Option Nat} {d : Dict} {t : Nat} {ins outs : List Ty} (hp : ∀ d ∈ decls, d.pub = true)
    (h : Gives decls cur S strict scope d t ins outs) : ∀ scope', Gives decls cur S true scope' d t ins outs := by
  induction h with
  | intro scope k d ρ ds h1 _ h3 h4 _ ih =>
    intro scope'
    exact .intro scope' k d ρ ds h1 (fun _ => .inl (hp d (List.mem_of_getElem? h1))) h3 h4
      fun n t ins outs e hc he => ih n t ins outs e hc he _

mutual

theorem subst_inj {ρ ρ' : Nat → Ty} : ∀ t : Ty, t.subst ρ = t.subst ρ' → ∀ v, t.contains v = true → ρ v = ρ' v
  | .never, _, v, hv => by simp [Ty.contains] at hv
  | .var w, h, v, hv => by
    simp only [Ty.contains, beq_iff_eq] at hv
    subst hv
    simpa [Ty.subst] using h
  | .node _ args, h, v, hv => by
    rw [Ty.subst, Ty.subst] at h
    injection h with _ h
    exact subst_injArgs args h v (by simpa [Ty.contains] using hv)

theorem subst_injArgs {ρ ρ' : Nat → Ty} : ∀ a : Args, a.subst ρ = a.subst ρ' → ∀ v, a.contains v = true → ρ v = ρ' v
  | .nil, _, v, hv => by simp [Args.contains] at hv
  | .cons _ t rest, h, v, hv => by
    rw [Args.subst, Args.subst] at h
    injection h with _ h1 h2
    rw [Args.contains, Bool.or_eq_true] at hv
    rcases hv with hv | hv
    · exact subst_inj t h1 v hv
    · exact subst_injArgs rest h2 v hv

end

theorem subst_inj_list {ρ ρ' : Nat → Ty} {l : List Ty} (h : l.map (·.subst ρ) = l.map (·.subst ρ')) {t : Ty} (ht : t ∈ l) :
    t.subst ρ = t.subst ρ' := by
  have := List.map_inj_left.1 h t ht
  exact this

theorem subst_congr_list {ρ ρ' : Nat → Ty} {l : List Ty} (h : ∀ t ∈ l, ∀ v, t.contains v = true → ρ v = ρ' v) :
    l.map (·.subst ρ) = l.map (·.subst ρ') :=
  List.map_congr_left fun t ht => Ty.subst_congr t (h t ht)

/-- At most one dictionary shows that given types have a trait, and it determines the outputs. -/
theorem unique {arity : Nat → Nat × Nat} {env : Env} (hw : World S arity env) {scope : Option Nat} {d : Dict} {t : Nat}
    {ins outs : List Ty} (h : Gives env.decls env.cur S false scope d t ins outs) :
    ∀ {scope' d' outs'}, Gives env.decls env.cur S false scope' d' t ins outs' → d = d' ∧ outs = outs' := by
  induction h with
  | intro scope k d ρ ds h1 h2 h3 h4 h5 ih =>
    intro scope' d' outs' h'
    generalize ht : d.impl.trait = t at h'
    generalize hi : d.impl.inputs.map (·.subst ρ) = ins at h'
    cases h' with
    | intro _ k' e ρ' ds' g1 g2 g3 g4 g5 =>
      have hk : k = k' := by
        have a := Gives.loose (Gives.intro scope k d ρ ds h1 h2 h3 h4 h5) none
        have b := Gives.loose (Gives.intro scope' k' e ρ' ds' g1 g2 g3 g4 g5) none
        rw [ht, hi] at a
        exact hw.one _ _ _ _ _ _ _ _ a b
      subst hk
      rw [h1] at g1
      cases g1
      obtain ⟨hok, hfix, -, -, hcs⟩ := hw.formed d (List.mem_of_getElem? h1)
      -- the dictionaries of a constraint with equal inputs
      have hkn : ∀ v, Known d.impl v → ρ v = ρ' v := by
        intro v hv
        induction hv with
        | input v t ht hv => exact subst_inj t (subst_inj_list hi ht) v hv
        | output v t trait cins couts hc ht hv _ ih' =>
          obtain ⟨n, hn, hc'⟩ := List.getElem_of_mem hc
          have hc' : d.impl.constraints[n]? = some (.haveTrait trait cins couts) := by rw [List.getElem?_eq_getElem hn, hc']
          have e1 : ds[n]? = some ds[n] := List.getElem?_eq_getElem (by omega)
          have e2 : ds'[n]? = some ds'[n] := List.getElem?_eq_getElem (by omega)
          have hin : cins.map (·.subst ρ) = cins.map (·.subst ρ') := subst_congr_list fun u hu w hw => ih' u hu w hw
          have := g5 n _ _ _ _ hc' e2
          rw [← hin] at this
          exact subst_inj t (subst_inj_list (ih n _ _ _ _ hc' e1 this).2 ht) v hv
      refine ⟨?_, subst_congr_list fun t ht v hv => hkn v (hfix.outputs t ht v hv)⟩
      congr 1
      refine List.ext_getElem? fun n => ?_
      by_cases hn : n < d.impl.constraints.length
      · obtain ⟨trait, cins, couts, hc, -⟩ := hcs _ (List.getElem_mem hn)
        have hc' : d.impl.constraints[n]? = some (.haveTrait trait cins couts) := by rw [List.getElem?_eq_getElem hn, hc]
        have e1 : ds[n]? = some ds[n] := List.getElem?_eq_getElem (by omega)
        have e2 : ds'[n]? = some ds'[n] := List.getElem?_eq_getElem (by omega)
        have hin : cins.map (·.subst ρ) = cins.map (·.subst ρ') :=
          subst_congr_list fun u hu w hw => hkn w (hfix.constraints _ _ _ (List.mem_of_getElem? hc') u hu w hw)
        have := g5 n _ _ _ _ hc' e2
        rw [← hin] at this
        rw [e1, e2, (ih n _ _ _ _ hc' e1 this).1]
      · rw [List.getElem?_eq_none_iff.2 (by omega), List.getElem?_eq_none_iff.2 (by omega)]

end Ferlium.Resolve
