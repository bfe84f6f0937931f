import Verif.Proofs.ResolveEval
import Verif.Props.Unify

/-!
C78: the search for the implementation of a trait.
-/
namespace Ferlium.Resolve
open Ferlium.Unify Ferlium.Coherence

variable {S : Head → List (Option Nat) → Prop} {arity : Nat → Nat × Nat} {env : Env}

/-- The search ends with an answer, whatever was asked before. -/
theorem C78_answers (hw : World S arity env) {st : State} (h : Reached S arity env st) {t : Nat} {ins : List Ty}
    (hg : Goal S arity t ins) :
    (∃ st' a, solveImpl env st t ins = some (st', a)) ∧ ∃ st' a, solveOutputs env st t ins = some (st', a) := by
  obtain ⟨st', a, e, -⟩ := application_ok hw env.levels [] st none t ins (h.ok hw) hg
  obtain ⟨st'', a', e', -⟩ := query_ok (scope := none) (application_ok hw env.levels []) (h.ok hw) hg
  exact ⟨⟨st', a, e⟩, st'', a', e'⟩

/-- What the search answers is shown by the dictionary, the only one which shows anything about these types and this trait.
Missing: that all implementations in it may be used where it is asked. -/
theorem C78_sound_partial (hw : World S arity env) {st : State} (h : Reached S arity env st) {t : Nat} {ins : List Ty}
    (hg : Goal S arity t ins) :
    (∀ st' d outs, solveImpl env st t ins = some (st', some (d, outs)) → Gives env.decls env.cur S false none d t ins outs ∧
      ∀ d' outs', Gives env.decls env.cur S false none d' t ins outs' → d' = d ∧ outs' = outs) ∧
    ∀ st' outs, solveOutputs env st t ins = some (st', some outs) → ∃ d, Gives env.decls env.cur S false none d t ins outs ∧
      ∀ d' outs', Gives env.decls env.cur S false none d' t ins outs' → d' = d ∧ outs' = outs := by
  constructor
  · intro st' d outs he
    obtain ⟨st'', a, e, -, -, h3, -⟩ := application_ok hw env.levels [] st none t ins (h.ok hw) hg
    rw [solveImpl, e] at he
    cases he
    have hd := h3 d outs rfl
    exact ⟨hd, fun d' outs' hd' => unique hw hd' hd⟩
  · intro st' outs he
    obtain ⟨st'', a, e, -, -, h3, -⟩ := query_ok (scope := none) (application_ok hw env.levels []) (h.ok hw) hg
    rw [solveOutputs, e] at he
    cases he
    obtain ⟨d, hd⟩ := h3 outs rfl
    exact ⟨d, hd, fun d' outs' hd' => unique hw hd' hd⟩

/-- Whatever was asked before, a dictionary of implementations that may be used is found, with its outputs.  Missing: dictionaries
nested deeper than the limit. -/
theorem C78_complete_partial (hw : World S arity env) {st : State} (h : Reached S arity env st) {t : Nat} {ins : List Ty} {d : Dict}
    {outs : List Ty} (hd : Gives env.decls env.cur S true none d t ins outs) (hn : Deep env.levels d) :
    (∃ st', solveImpl env st t ins = some (st', some (d, outs))) ∧ ∃ st', solveOutputs env st t ins = some (st', some outs) := by
  have hg := (hd.plain hw).1
  have hsure : Surely env S env.levels [] st.made none t ins :=
    ⟨d, outs, hd.near hw st.made _ _ hn (.inl rfl), hd.loose none, fun g hg => by cases hg⟩
  constructor
  · obtain ⟨st', a, e, -, -, h3, h4⟩ := application_ok hw env.levels [] st none t ins (h.ok hw) hg
    cases a with
    | none => exact absurd rfl (h4 hsure)
    | some r =>
      obtain ⟨d', outs'⟩ := r
      obtain ⟨rfl, rfl⟩ := unique hw (hd.loose none) (h3 d' outs' rfl)
      exact ⟨st', e⟩
  · obtain ⟨st', a, e, -, -, h3, h4⟩ := query_ok (scope := none) (application_ok hw env.levels []) (h.ok hw) hg
    cases a with
    | none => exact absurd rfl (h4 hsure)
    | some outs' =>
      obtain ⟨d', hd'⟩ := h3 outs' rfl
      obtain ⟨rfl, rfl⟩ := unique hw (hd.loose none) hd'
      exact ⟨st', e⟩

/-- If the other modules have no private implementations, an answer uses only what may be used, so up to the limit the search
answers exactly what there is, whatever was asked before. -/
theorem C78_exact_partial (hw : World S arity env) (hp : ∀ d ∈ env.decls, d.pub = true ∨ d.home = env.cur) {st : State}
    (h : Reached S arity env st) {t : Nat} {ins : List Ty} (hg : Goal S arity t ins) {d : Dict} (hn : Deep env.levels d) {outs : List Ty} :
    (∃ st', solveImpl env st t ins = some (st', some (d, outs))) ↔ Gives env.decls env.cur S true none d t ins outs := by
  have hall : ∀ {scope d t ins outs}, Gives env.decls env.cur S false scope d t ins outs → ∀ scope', Gives env.decls env.cur S true scope' d t ins outs := by
    intro scope d t ins outs h
    induction h with
    | intro scope k d ρ ds h1 _ h3 h4 _ ih =>
      intro scope'
      refine .intro scope' k d ρ ds h1 (fun _ => ?_) h3 h4 fun n t ins outs e hc he => ih n t ins outs e hc he _
      rcases hp d (List.mem_of_getElem? h1) with h | h
      · exact .inl h
      · exact .inr (.inl h)
  constructor
  · rintro ⟨st', he⟩
    exact hall ((C78_sound_partial hw h hg).1 st' d outs he).1 none
  · intro hd
    exact (C78_complete_partial hw h hd hn).1

/-- Two answers about the same types never differ, whatever was asked before each, and inference has the same outputs as the code
that is made. -/
theorem C78_answers_agree (hw : World S arity env) {st₁ st₂ : State} (h₁ : Reached S arity env st₁) (h₂ : Reached S arity env st₂)
    {t : Nat} {ins : List Ty} (hg : Goal S arity t ins) {st₁' st₂' : State} {d₁ : Dict} {outs₁ : List Ty}
    (e₁ : solveImpl env st₁ t ins = some (st₁', some (d₁, outs₁))) :
    (∀ d₂ outs₂, solveImpl env st₂ t ins = some (st₂', some (d₂, outs₂)) → d₁ = d₂ ∧ outs₁ = outs₂) ∧
      ∀ outs₂, solveOutputs env st₂ t ins = some (st₂', some outs₂) → outs₁ = outs₂ := by
  obtain ⟨hd, -⟩ := (C78_sound_partial hw h₁ hg).1 _ _ _ e₁
  refine ⟨fun d₂ outs₂ e₂ => ((C78_sound_partial hw h₂ hg).1 _ _ _ e₂).2 _ _ hd, fun outs₂ e₂ => ?_⟩
  obtain ⟨d₂, -, hu⟩ := (C78_sound_partial hw h₂ hg).2 _ _ e₂
  exact (hu _ _ hd).2

/-! ### Examples -/

/-- The types of the examples are made as they should. -/
theorem exTidy : Tidy exSorts where
  named := by intro k ns ms h h'; simp only [exSorts] at h h'; rw [h, h']
  native := by intro k ns ms h h'; simp only [exSorts] at h h'; rw [h, h']
  positional := by
    intro h ns hc hs n hn
    cases h with
    | native k => simp only [exSorts] at hs; subst hs; cases hn
    | named k => simp only [exSorts] at hs; subst hs; exact List.eq_of_mem_replicate hn
    | tuple => exact hs n hn
    | function => exact hs n hn
    | variant => cases hc
    | record => cases hc
  records := by
    intro ns ms h h' hp
    simp only [exSorts] at h h'
    rcases h with rfl | rfl <;> rcases h' with rfl | rfl <;> simp_all

/-- The type `Box<t>`. -/
def box (t : Ty) : Ty := .node (.named 1) (.cons none t .nil)

theorem box_subst (t : Ty) (ρ : Nat → Ty) : (box t).subst ρ = box (t.subst ρ) := by simp [box, Ty.subst, Args.subst]

theorem box_inj {t u : Ty} : box t = box u ↔ t = u := by simp [box]

theorem box_plain {t : Ty} (h : Plain exSorts t) : Plain exSorts (box t) := by
  obtain ⟨h1, h2, h3⟩ := h
  refine ⟨fun v => ?_, ?_, ?_⟩
  · simp [box, Ty.contains, Args.contains, h1 v]
  · simp [box, Ty.NoNever, Args.NoNever, h2]
  · simp [box, Ty.Sorted, Args.Sorted, Args.names, exSorts, h3]

theorem int_plain' : Plain exSorts int := by
  refine ⟨fun v => ?_, ?_, ?_⟩ <;>
    simp [int, Ty.contains, Args.contains, Ty.NoNever, Args.NoNever, Ty.Sorted, Args.Sorted, Args.names, exSorts]

theorem bool_plain : Plain exSorts Unify.bool := by
  refine ⟨fun v => ?_, ?_, ?_⟩ <;>
    simp [Unify.bool, Ty.contains, Args.contains, Ty.NoNever, Args.NoNever, Ty.Sorted, Args.Sorted, Args.names, exSorts]

/-- At most one implementation applies if no two of the same trait have inputs in common. -/
theorem one_of_apart {decls : List Decl} {cur : Nat} (h : ∀ (k k' : Nat) (d d' : Decl) (ρ ρ' : Nat → Ty), decls[k]? = some d → decls[k']? = some d' →
    d.impl.trait = d'.impl.trait → d.impl.inputs.map (·.subst ρ) = d'.impl.inputs.map (·.subst ρ') → k = k') :
    ∀ k ds k' ds' t ins outs outs', Gives decls cur S false none (.mk k ds) t ins outs →
      Gives decls cur S false none (.mk k' ds') t ins outs' → k = k' := by
  intro k ds k' ds' t ins outs outs' h1 h2
  cases h1 with
  | intro _ _ d ρ _ g1 _ _ _ _ =>
    generalize ht : d.impl.trait = t at h2
    generalize hi : d.impl.inputs.map (·.subst ρ) = ins at h2
    cases h2 with
    | intro _ _ d' ρ' _ g1' _ _ _ _ => exact h k k' d d' ρ ρ' g1 g1' ht hi

/-- The traits of the examples: each with one input; the traits 3 and 4 with one output. -/
def exArity (t : Nat) : Nat × Nat := if t = 3 ∨ t = 4 then (1, 1) else (1, 0)

/-- `impl<T> Item for <Box<T> |-> T>`, `impl Num for int`, and `impl<T, U> Sum for <T |-> U> where Num<U>, Item<T |-> U>`. -/
def sumEnv : Env :=
  ⟨[⟨⟨3, 1, [box (.var 0)], [.var 0], []⟩, 1, true⟩, ⟨⟨1, 0, [int], [], []⟩, 1, true⟩,
    ⟨⟨4, 2, [.var 0], [.var 1], [.haveTrait 1 [.var 1] [], .haveTrait 3 [.var 0] [.var 1]]⟩, 0, false⟩], 0, fun _ _ => true, 129⟩

theorem sumWorld : World exSorts exArity sumEnv where
  tidy := exTidy
  int := rfl
  formed := by
    intro d hd
    simp only [sumEnv, List.mem_cons, List.not_mem_nil, or_false] at hd
    rcases hd with rfl | rfl | rfl
    · refine ⟨⟨?_, ?_, ?_, ?_⟩, ⟨?_, ?_⟩, ?_, ?_, ?_⟩ <;> simp [TyOk, box, Ty.contains, Args.contains, Ty.Sorted, Args.Sorted, Args.names,
        exSorts, exArity, Ty.NoNever, Args.NoNever]
      exact .input 0 (box (.var 0)) (by simp [box]) (by simp [box, Ty.contains, Args.contains])
    · refine ⟨⟨?_, ?_, ?_, ?_⟩, ⟨?_, ?_⟩, ?_, ?_, ?_⟩ <;> simp [TyOk, int, Ty.contains, Args.contains, Ty.Sorted, Args.Sorted, Args.names,
        exSorts, exArity, Ty.NoNever, Args.NoNever]
    · have h0 : Known ⟨4, 2, [.var 0], [.var 1], [.haveTrait 1 [.var 1] [], .haveTrait 3 [.var 0] [.var 1]]⟩ 0 :=
        .input 0 (.var 0) (by simp) (by simp [Ty.contains])
      have h1 : Known ⟨4, 2, [.var 0], [.var 1], [.haveTrait 1 [.var 1] [], .haveTrait 3 [.var 0] [.var 1]]⟩ 1 :=
        .output 1 (.var 1) 3 [.var 0] [.var 1] (by simp) (by simp) (by simp [Ty.contains]) (by
          intro u hu w hw
          simp only [List.mem_singleton] at hu
          subst hu
          simp only [Ty.contains, beq_iff_eq] at hw
          subst hw
          exact h0)
      refine ⟨⟨?_, ?_, ?_, ?_⟩, ⟨?_, ?_⟩, ?_, ?_, ?_⟩ <;> simp [TyOk, ConstraintOk, Ty.contains, Ty.Sorted, exArity, Ty.NoNever, h0, h1]
      rintro trait ins outs (⟨rfl, rfl, rfl⟩ | ⟨rfl, rfl, rfl⟩) u hu v hv <;> simp only [List.mem_singleton] at hu <;> subst hu <;>
        simp only [Ty.contains, beq_iff_eq] at hv <;> subst hv
      exacts [h1, h0]
  one := one_of_apart fun k k' d d' ρ ρ' h1 h2 h3 _ => by
    simp only [sumEnv] at h1 h2
    rcases k with _ | _ | _ | k <;> rcases k' with _ | _ | _ | k' <;> simp at h1 h2 <;> subst h1 <;> subst h2 <;> simp at h3 <;> rfl

/-- No other module has private implementations. -/
example : ∀ d ∈ sumEnv.decls, d.pub = true ∨ d.home = sumEnv.cur := by
  intro d hd
  simp only [sumEnv, List.mem_cons, List.not_mem_nil, or_false] at hd
  rcases hd with rfl | rfl | rfl <;> simp [sumEnv]

/-- `Box<int>` has the sum `int`, and a new solver finds it. -/
example : ∃ st', solveImpl sumEnv .new 4 [box int] = some (st', some (.mk 2 [.mk 1 [], .mk 0 []], [int])) := by
  refine (C78_complete_partial sumWorld .new (d := .mk 2 [.mk 1 [], .mk 0 []]) (outs := [int]) ?_ ?_).1
  · have h0 := Gives.intro (decls := sumEnv.decls) (cur := 0) (S := exSorts) (strict := true) none 0
      ⟨⟨3, 1, [box (.var 0)], [.var 0], []⟩, 1, true⟩ (fun _ => int) [] rfl (fun _ => .inl rfl) (fun _ => int_plain') rfl
      (fun n t ins outs e _ he => by simp at he)
    have h1 := Gives.intro (decls := sumEnv.decls) (cur := 0) (S := exSorts) (strict := true) none 1
      ⟨⟨1, 0, [int], [], []⟩, 1, true⟩ (fun _ => int) [] rfl (fun _ => .inl rfl) (fun _ => int_plain') rfl
      (fun n t ins outs e _ he => by simp at he)
    have h2 := Gives.intro (decls := sumEnv.decls) (cur := 0) (S := exSorts) (strict := true) none 2
      ⟨⟨4, 2, [.var 0], [.var 1], [.haveTrait 1 [.var 1] [], .haveTrait 3 [.var 0] [.var 1]]⟩, 0, false⟩
      (fun v => if v = 0 then box int else int) [.mk 1 [], .mk 0 []] rfl (fun _ => .inr (.inl rfl))
      (fun v => by split; exacts [box_plain int_plain', int_plain']) rfl
      (fun n t ins outs e hc he => by
        rcases n with _ | _ | n
        · simp at hc he
          obtain ⟨rfl, rfl, rfl⟩ := hc
          subst he
          simpa [within, Ty.subst, int, Args.subst] using h1
        · simp at hc he
          obtain ⟨rfl, rfl, rfl⟩ := hc
          subst he
          simpa [within, Ty.subst, box, Args.subst] using h0
        · simp at he)
    simpa [Ty.subst, sumEnv] using h2
  · refine .intro 128 2 _ fun d hd => ?_
    simp only [List.mem_cons, List.not_mem_nil, or_false] at hd
    rcases hd with rfl | rfl <;> exact .intro 127 _ [] fun d hd => by cases hd

/-! ### Private implementations are not always private -/

/-- `impl<T> ToInt for Box<T>`, private to the module 1. -/
def hiddenImpl : Decl := ⟨⟨0, 1, [box (.var 0)], [], []⟩, 1, false⟩

/-- `pub impl<T> Show for T where ToInt<T>` of the same module. -/
def showImpl : Decl := ⟨⟨1, 1, [.var 0], [], [.haveTrait 0 [.var 0] []]⟩, 1, true⟩

/-- The module 0 is compiled. -/
def leakEnv : Env := ⟨[hiddenImpl, showImpl], 0, fun _ _ => true, 129⟩

theorem hidden_formed : Formed exSorts exArity hiddenImpl.impl := by
  refine ⟨⟨?_, ?_, ?_, ?_⟩, ⟨?_, ?_⟩, ?_, ?_, ?_⟩ <;> simp [hiddenImpl, TyOk, box, Ty.contains, Args.contains, Ty.Sorted, Args.Sorted, Args.names,
    exSorts, exArity, Ty.NoNever, Args.NoNever]

theorem show_formed : Formed exSorts exArity showImpl.impl := by
  refine ⟨⟨?_, ?_, ?_, ?_⟩, ⟨?_, ?_⟩, ?_, ?_, ?_⟩ <;> simp [showImpl, TyOk, ConstraintOk, Ty.contains, Ty.Sorted, exArity, Ty.NoNever]
  rintro _ _ _ rfl rfl rfl u hu v hv
  simp only [List.mem_singleton] at hu
  subst hu
  simp only [Ty.contains, beq_iff_eq] at hv
  subst hv
  exact .input 0 (.var 0) (by simp) (by simp [Ty.contains])

theorem leakWorld : World exSorts exArity leakEnv where
  tidy := exTidy
  int := rfl
  formed := by
    intro d hd
    simp only [leakEnv, List.mem_cons, List.not_mem_nil, or_false] at hd
    rcases hd with rfl | rfl
    exacts [hidden_formed, show_formed]
  one := one_of_apart fun k k' d d' ρ ρ' h1 h2 h3 _ => by
    simp only [leakEnv] at h1 h2
    rcases k with _ | _ | k <;> rcases k' with _ | _ | k' <;> simp at h1 h2 <;> subst h1 <;> subst h2 <;>
      simp [hiddenImpl, showImpl] at h3 <;> rfl

theorem leak_goal (t : Nat) (ht : (exArity t).1 = 1) : Goal exSorts exArity t [box int] := by
  refine ⟨by simp [ht], fun u hu => ?_⟩
  simp only [List.mem_singleton] at hu
  subst hu
  exact box_plain int_plain'

/-- Below the implementation of the module 1 its private implementation is found and made. -/
theorem leak_below (n : Nat) (memo : List ((Option Nat × Nat × List Ty) × List Ty)) :
    application leakEnv (n + 1) [(1, [box int])] ⟨[], memo⟩ (some 1) 0 [box int] =
      some (⟨[((0, [box int]), .mk 0 [], [])], memo⟩, some (.mk 0 [], [])) := by
  rw [application, show lookup leakEnv ⟨[], memo⟩ (some 1) 0 [box int] = none from rfl]
  simp only
  rw [if_neg (by simp), show blankets leakEnv 0 = [(hiddenImpl, 0)] from rfl, search, if_pos (by rfl)]
  simp only
  have := match_none (arity := exArity) exTidy (application leakEnv n [(0, [box int]), (1, [box int])]) leakEnv.pick (some 1) ⟨[], memo⟩
    hidden_formed (ρ := fun _ => int) (fun _ => int_plain') rfl (by simp [hiddenImpl])
  simp only [hiddenImpl, List.map_cons, List.map_nil, box_subst, Ty.subst] at this
  rw [show (if hiddenImpl.home = leakEnv.cur then some 1 else some hiddenImpl.home) = some 1 from rfl]
  simp only [hiddenImpl]
  rw [this]
  simp [materialize]

/-- The solver after the public implementation was asked for. -/
def leaked : State := ⟨[((1, [box int]), .mk 1 [.mk 0 []], []), ((0, [box int]), .mk 0 [], [])], [((some 1, 0, [box int]), [])]⟩

theorem leak_made : solveImpl leakEnv .new 1 [box int] = some (leaked, some (.mk 1 [.mk 0 []], [])) := by
  rw [solveImpl, show leakEnv.levels = 128 + 1 from rfl, application, show lookup leakEnv .new none 1 [box int] = none from rfl]
  simp only
  rw [if_neg (by simp), show blankets leakEnv 1 = [(showImpl, 1)] from rfl, search, if_pos (by rfl)]
  simp only
  have := match_one (arity := exArity) exTidy (application leakEnv 128 [(1, [box int])]) leakEnv.pick (some 1) .new
    show_formed (ρ := fun _ => box int) (fun _ => box_plain int_plain') (t := 0) (cins := [.var 0]) rfl (by simp [showImpl, Ty.contains])
  rw [show (if showImpl.home = leakEnv.cur then none else some showImpl.home) = some 1 from rfl]
  simp only [showImpl, List.map_cons, List.map_nil, Ty.subst] at this ⊢
  rw [this, query, show (if [box int].all (·.isConstant) = true then State.new.memo.lookup (some 1, 0, [box int]) else none) = none from rfl]
  simp only
  rw [State.new, leak_below]
  simp only
  rw [if_pos (by rfl)]
  simp only [materialize, leak_below]
  rfl

/-- The private implementation may not be used in the module which is compiled, and a new solver does not use it.  After the public
one was asked for, it does. -/
theorem C78_private_violated : ∃ (env : Env) (st : State) (t : Nat) (ins : List Ty), World exSorts exArity env ∧ Reached exSorts exArity env st ∧
    Goal exSorts exArity t ins ∧ (¬ ∃ d outs, Gives env.decls env.cur exSorts true none d t ins outs) ∧
    (∃ st', solveImpl env .new t ins = some (st', none)) ∧ ∃ st' r, solveImpl env st t ins = some (st', some r) := by
  refine ⟨leakEnv, leaked, 0, [box int], leakWorld, .impl .new (leak_goal 1 rfl) leak_made, leak_goal 0 rfl, ?_, ⟨.new, rfl⟩, leaked, _, rfl⟩
  rintro ⟨d, outs, h⟩
  obtain ⟨k, d, ρ, ds, -, h1, h2, ht, -⟩ := h.parts
  have hv := h2 rfl
  simp only [leakEnv] at h1
  rcases k with _ | _ | k
  · simp at h1
    subst h1
    simp [Visible, hiddenImpl, leakEnv] at hv
  · simp at h1
    subst h1
    simp [showImpl] at ht
  · simp at h1

/-- `impl ToInt for bool`, private to the module 1; `bool` stands for a type of that module. -/
def secretImpl : Decl := ⟨⟨0, 0, [Unify.bool], [], []⟩, 1, false⟩

/-- `pub impl<T> Show for T where Bar<Box<T>>` of the same module. -/
def viaImpl : Decl := ⟨⟨1, 1, [.var 0], [], [.haveTrait 2 [box (.var 0)] []]⟩, 1, true⟩

/-- `impl<T> Bar for Box<T> where ToInt<T>` of the module which is compiled. -/
def barImpl : Decl := ⟨⟨2, 1, [box (.var 0)], [], [.haveTrait 0 [.var 0] []]⟩, 0, false⟩

/-- The module 0 is compiled. -/
def scopeEnv : Env := ⟨[secretImpl, viaImpl, barImpl], 0, fun _ _ => true, 129⟩

theorem scopeWorld : World exSorts exArity scopeEnv where
  tidy := exTidy
  int := rfl
  formed := by
    intro d hd
    simp only [scopeEnv, List.mem_cons, List.not_mem_nil, or_false] at hd
    rcases hd with rfl | rfl | rfl
    · refine ⟨⟨?_, ?_, ?_, ?_⟩, ⟨?_, ?_⟩, ?_, ?_, ?_⟩ <;> simp [secretImpl, TyOk, Unify.bool, Ty.contains, Args.contains, Ty.Sorted, Args.Sorted,
        Args.names, exSorts, exArity, Ty.NoNever, Args.NoNever]
    · refine ⟨⟨?_, ?_, ?_, ?_⟩, ⟨?_, ?_⟩, ?_, ?_, ?_⟩ <;> simp [viaImpl, TyOk, ConstraintOk, box, Ty.contains, Args.contains, Ty.Sorted,
        Args.Sorted, Args.names, exSorts, exArity, Ty.NoNever, Args.NoNever]
      rintro _ _ _ rfl rfl rfl u hu v hv
      simp only [List.mem_singleton] at hu
      subst hu
      simp [Ty.contains, Args.contains] at hv
      subst hv
      exact .input 0 (.var 0) (by simp) (by simp [Ty.contains])
    · refine ⟨⟨?_, ?_, ?_, ?_⟩, ⟨?_, ?_⟩, ?_, ?_, ?_⟩ <;> simp [barImpl, TyOk, ConstraintOk, box, Ty.contains, Args.contains, Ty.Sorted,
        Args.Sorted, Args.names, exSorts, exArity, Ty.NoNever, Args.NoNever]
      rintro _ _ _ rfl rfl rfl u hu v hv
      simp only [List.mem_singleton] at hu
      subst hu
      simp only [Ty.contains, beq_iff_eq] at hv
      subst hv
      exact .input 0 (box (.var 0)) (by simp [box]) (by simp [box, Ty.contains, Args.contains])
  one := one_of_apart fun k k' d d' ρ ρ' h1 h2 h3 _ => by
    simp only [scopeEnv] at h1 h2
    rcases k with _ | _ | _ | k <;> rcases k' with _ | _ | _ | k' <;> simp at h1 h2 <;> subst h1 <;> subst h2 <;>
      simp [secretImpl, viaImpl, barImpl] at h3 <;> rfl

/-- An implementation of the module which is compiled uses a private one of another module if one of that module asks for it, even
with a new solver. -/
theorem C78_scope_violated : ∃ (env : Env) (t : Nat) (ins : List Ty), World exSorts exArity env ∧ Goal exSorts exArity t ins ∧
    (¬ ∃ d outs, Gives env.decls env.cur exSorts true none d t ins outs) ∧ ∃ st' r, solveImpl env .new t ins = some (st', some r) := by
  have hnear : Near scopeEnv exSorts State.new.made scopeEnv.levels none (.mk 1 [.mk 2 [.mk 0 []]]) 1 [Unify.bool] [] := by
    have h0 := Near.concrete (env := scopeEnv) (S := exSorts) (made := []) 127 (some 1) 0 secretImpl rfl (.inr (.inr rfl)) rfl
    have h1 := Near.intro (env := scopeEnv) (S := exSorts) (made := []) 127 (some 1) 2 barImpl (fun _ => Unify.bool) [.mk 0 []] rfl
      (.inr (.inl rfl)) (by simp [barImpl]) (fun _ => bool_plain) rfl (fun m t ins outs e hc he => by
        rcases m with _ | m
        · simp [barImpl] at hc he
          obtain ⟨rfl, rfl, rfl⟩ := hc
          subst he
          simpa [Ty.subst, barImpl, scopeEnv, secretImpl] using h0
        · simp at he)
    have h2 := Near.intro (env := scopeEnv) (S := exSorts) (made := []) 128 none 1 viaImpl (fun _ => Unify.bool) [.mk 2 [.mk 0 []]] rfl
      (.inl rfl) (by simp [viaImpl]) (fun _ => bool_plain) rfl (fun m t ins outs e hc he => by
        rcases m with _ | m
        · simp [viaImpl] at hc he
          obtain ⟨rfl, rfl, rfl⟩ := hc
          subst he
          simpa [Ty.subst, barImpl, scopeEnv, viaImpl, box_subst] using h1
        · simp at he)
    simpa [viaImpl, Ty.subst, State.new, scopeEnv] using h2
  obtain ⟨st', he⟩ := near_found scopeWorld .new hnear
  refine ⟨scopeEnv, 1, [Unify.bool], scopeWorld, ⟨rfl, fun u hu => ?_⟩, ?_, st', _, he⟩
  · simp only [List.mem_singleton] at hu
    subst hu
    exact bool_plain
  · rintro ⟨d, outs, h⟩
    obtain ⟨rfl, rfl⟩ := unique scopeWorld (h.loose none) (hnear.has scopeWorld (Reached.ok scopeWorld .new))
    -- the innermost implementation is used in the module itself
    obtain ⟨k, d, ρ, ds, hd, h1, -, -, -, h5⟩ := h.parts
    cases hd
    simp [scopeEnv] at h1
    subst h1
    obtain ⟨k, d, ρ, ds, hd, h1, -, -, -, h5⟩ := (h5 0 2 [box (.var 0)] [] _ rfl rfl).parts
    cases hd
    simp [scopeEnv] at h1
    subst h1
    obtain ⟨k, d, ρ, ds, hd, h1, h2, -⟩ := (h5 0 0 [.var 0] [] _ rfl rfl).parts
    cases hd
    simp [scopeEnv] at h1
    subst h1
    have := h2 rfl
    simp [Visible, secretImpl, scopeEnv, within, barImpl] at this

/-! ### The limit depends on what was asked before -/

/-- `impl Foo for int`. -/
def fooInt : Decl := ⟨⟨0, 0, [int], [], []⟩, 0, true⟩

/-- `impl<T> Foo for Box<T> where Foo<T>`. -/
def fooBox : Decl := ⟨⟨0, 1, [box (.var 0)], [], [.haveTrait 0 [.var 0] []]⟩, 0, true⟩

/-- One module with both. -/
def fooEnv : Env := ⟨[fooInt, fooBox], 0, fun _ _ => true, 129⟩

/-- `Box<Box<… int>>`. -/
def boxes : Nat → Ty
  | 0 => int
  | n + 1 => box (boxes n)

/-- Its dictionary. -/
def fooDict : Nat → Dict
  | 0 => .mk 0 []
  | n + 1 => .mk 1 [fooDict n]

theorem boxes_plain : ∀ n, Plain exSorts (boxes n)
  | 0 => int_plain'
  | n + 1 => box_plain (boxes_plain n)

theorem boxes_goal (n : Nat) : Goal exSorts exArity 0 [boxes n] := by
  refine ⟨rfl, fun u hu => ?_⟩
  simp only [List.mem_singleton] at hu
  subst hu
  exact boxes_plain n

theorem fooBox_formed : Formed exSorts exArity fooBox.impl := by
  refine ⟨⟨?_, ?_, ?_, ?_⟩, ⟨?_, ?_⟩, ?_, ?_, ?_⟩ <;> simp [fooBox, TyOk, ConstraintOk, box, Ty.contains, Args.contains, Ty.Sorted,
    Args.Sorted, Args.names, exSorts, exArity, Ty.NoNever, Args.NoNever]
  rintro _ _ _ rfl rfl rfl u hu v hv
  simp only [List.mem_singleton] at hu
  subst hu
  simp only [Ty.contains, beq_iff_eq] at hv
  subst hv
  exact .input 0 (box (.var 0)) (by simp [box]) (by simp [box, Ty.contains, Args.contains])

theorem fooWorld : World exSorts exArity fooEnv where
  tidy := exTidy
  int := rfl
  formed := by
    intro d hd
    simp only [fooEnv, List.mem_cons, List.not_mem_nil, or_false] at hd
    rcases hd with rfl | rfl
    · refine ⟨⟨?_, ?_, ?_, ?_⟩, ⟨?_, ?_⟩, ?_, ?_, ?_⟩ <;> simp [fooInt, TyOk, int, Ty.contains, Args.contains, Ty.Sorted, Args.Sorted,
        Args.names, exSorts, exArity, Ty.NoNever, Args.NoNever]
    · exact fooBox_formed
  one := one_of_apart fun k k' d d' ρ ρ' h1 h2 _ h4 => by
    simp only [fooEnv] at h1 h2
    rcases k with _ | _ | k <;> rcases k' with _ | _ | k' <;> simp at h1 h2 <;> subst h1 <;> subst h2 <;>
      simp [fooInt, fooBox, box, int, Ty.subst, Args.subst] at h4 <;> rfl

theorem foo_near (made : Made) (m k : Nat) (h : Near fooEnv exSorts made k none (fooDict m) 0 [boxes m] []) :
    ∀ n, Near fooEnv exSorts made (k + n) none (fooDict (m + n)) 0 [boxes (m + n)] []
  | 0 => h
  | n + 1 => by
    have h1 := Near.intro (env := fooEnv) (S := exSorts) (made := made) (k + n) none 1 fooBox (fun _ => boxes (m + n)) [fooDict (m + n)] rfl
      (.inl rfl) (by simp [fooBox]) (fun _ => boxes_plain _) rfl (fun j t ins outs e hc he => by
        rcases j with _ | j
        · simp [fooBox] at hc he
          obtain ⟨rfl, rfl, rfl⟩ := hc
          subst he
          simpa [Ty.subst, fooEnv, fooBox] using foo_near made m k h n
        · simp at he)
    simpa [fooBox, box_subst, Ty.subst, ← Nat.add_assoc, boxes, fooDict] using h1

theorem foo_first (made : Made) (n : Nat) : Near fooEnv exSorts made n none (fooDict n) 0 [boxes n] [] := by
  have h0 := Near.concrete (env := fooEnv) (S := exSorts) (made := made) 0 none 0 fooInt rfl (.inl rfl) rfl
  have := foo_near made 0 0 (by simpa [fooInt, fooDict, boxes] using h0) n
  simpa using this

/-- A search that goes deeper than allowed finds nothing and notes nothing. -/
theorem foo_fails : ∀ (n m : Nat) (stack : List (Nat × List Ty)), n ≤ m →
    application fooEnv n stack .new none 0 [boxes (m + 1)] = some (.new, none)
  | n, m, stack, hle => by
    have hlk : lookup fooEnv .new none 0 [boxes (m + 1)] = none := rfl
    cases n with
    | zero =>
      rw [application, hlk]
      simp
    | succ n =>
      rw [application, hlk]
      simp only
      split
      · rfl
      · rw [show blankets fooEnv 0 = [(fooBox, 1)] from rfl, search, if_pos (by rfl)]
        simp only
        have := match_one (arity := exArity) exTidy (application fooEnv n ((0, [boxes (m + 1)]) :: stack)) fooEnv.pick none .new
          fooBox_formed (ρ := fun _ => boxes m) (fun _ => boxes_plain m) (t := 0) (cins := [.var 0]) rfl
          (by simp [fooBox, box, Ty.contains, Args.contains])
        rw [show (if fooBox.home = fooEnv.cur then none else some fooBox.home) = none from rfl]
        simp only [fooBox, List.map_cons, List.map_nil, Ty.subst, box_subst] at this ⊢
        rw [show [boxes (m + 1)] = [box (boxes m)] from rfl]
        rw [show [boxes (m + 1)] = [box (boxes m)] from rfl] at this
        rw [this]
        have hq : query (application fooEnv n ((0, [boxes (m + 1)]) :: stack)) .new none 0 [boxes m] = some (.new, none) := by
          cases m with
          | zero => omega
          | succ m =>
            have hn : (if [boxes (m + 1)].all (·.isConstant) = true then State.new.memo.lookup ((none : Option Nat), 0, [boxes (m + 1)]) else none) =
                none := by split <;> rfl
            rw [query, hn]
            simp only
            rw [foo_fails n m _ (by omega)]
        rw [show [boxes (m + 1)] = [box (boxes m)] from rfl] at hq
        rw [hq]
        simp only
        rfl

/-- Everything is public, and `Box<Box<… int>>` with 200 boxes has the trait, but a new solver does not find it.  After it was asked
about 100 boxes, it does. -/
theorem C78_history_violated : ∃ (env : Env) (st : State) (t : Nat) (ins : List Ty) (d : Dict) (outs : List Ty), env.levels = 129 ∧
    World exSorts exArity env ∧ (∀ d ∈ env.decls, d.pub = true) ∧ Reached exSorts exArity env st ∧
    Gives env.decls env.cur exSorts true none d t ins outs ∧ solveImpl env .new t ins = some (.new, none) ∧
    ∃ st', solveImpl env st t ins = some (st', some (d, outs)) := by
  obtain ⟨st, he⟩ := near_found (st := .new) fooWorld .new ((foo_first State.new.made 100).deeper _ (by simp [fooEnv]))
  have hr : Reached exSorts exArity fooEnv st := .impl .new (boxes_goal 100) he
  have hmade : ((0, [boxes 100]), fooDict 100, []) ∈ st.made := by
    rcases application_made he with h | h
    · cases h
    · exact h
  have hnear := foo_near st.made 100 0 (.hit _ _ _ _ _ _ hmade) 100
  have hpub : ∀ d ∈ fooEnv.decls, d.pub = true := by
    intro d hd
    simp only [fooEnv, List.mem_cons, List.not_mem_nil, or_false] at hd
    rcases hd with rfl | rfl <;> rfl
  refine ⟨fooEnv, st, 0, [boxes 200], fooDict 200, [], rfl, fooWorld, hpub, hr, ?_, foo_fails 129 199 [] (by omega), ?_⟩
  · exact (hnear.has fooWorld (hr.ok fooWorld)).public hpub none
  · exact near_found fooWorld hr (hnear.deeper _ (by simp [fooEnv]))

end Ferlium.Resolve
