import Verif.Proofs.Mutability
import Mathlib.Tactic.FinCases

/-!
# C86: inferred mutability of parameters
-/

namespace Ferlium.Mutability

/-- **C86**: when a function is accepted, every variable has a mutability and all uses respect it:
those in the body and those which arise from comparing function types. -/
theorem C86_sound (n : Nat) (first later : List Con) (t : Table)
    (hb : ∀ c ∈ later, c.below n) (h : solve n first later = .ok t) :
    ∃ σ : Nat → Bool, (∀ x < n, t.probe x = some (σ x)) ∧ ∀ c ∈ first ++ later, c.Holds σ := by
  simp only [solve] at h
  rcases steps_spec first (Wf.new n) with ⟨t₁, h1, d1⟩ | ⟨c, hc, h1, h2⟩
  · simp only [h1] at h
    obtain ⟨hw, hs, _, _, hcl⟩ := closeFrom_spec n t₁ 0 d1.wf
    have hcl' : ∀ y < n, (closeFrom t₁ 0 n).probe y ≠ none := fun y hy => hcl y (Nat.zero_le _) (by omega)
    cases steps_closed hcl' hb h
    refine ⟨(closeFrom t₁ 0 n).read, fun x hx => read_some (hcl' x hx), fun c hc => ?_⟩
    rcases List.mem_append.mp hc with hc | hc
    · exact (d1.sound _ (hs _ (agrees_read hw))).2 c hc
    · exact (steps_closed_iff hw ⟨n, hcl', hb⟩).mp ⟨_, h⟩ c hc
  · simp only [h1] at h
    cases h

/-- **C86**, partial: if there is a solution in which a variable that is used for another variable
has the same mutability, the function is accepted, and only those variables become mutable which
are mutable in all such solutions.  Missing: solutions which treat the two variables differently
(see the violations below). -/
theorem C86_least_partial (n : Nat) (cs : List Con) (τ : Nat → Bool) (h : ∀ c ∈ cs, c.Strict τ) :
    ∃ t, solve n cs [] = .ok t ∧ ∀ x, t.probe x = some true → τ x = true := by
  rcases steps_spec cs (Wf.new n) with ⟨t₁, h1, d1⟩ | ⟨c, hc, h1, h2⟩
  · obtain ⟨_, _, _, h4, _⟩ := closeFrom_spec n t₁ 0 d1.wf
    refine ⟨closeFrom t₁ 0 n, by simp only [solve, h1, steps], fun x hx => ?_⟩
    exact (d1.complete τ (Agrees.new τ n) h).value x true (h4 x hx)
  · exact (h2 τ (Agrees.new τ n) h).elim

/-- **C86**: without uses of a variable for another variable, a function is accepted exactly when
there is a solution, and its variables then have the least one: a parameter is mutable only if it
must be. -/
theorem C86_exact (n : Nat) (cs : List Con) (hv : ∀ c ∈ cs, c.twoVars = false)
    (hb : ∀ c ∈ cs, c.below n) :
    ((∃ t, solve n cs [] = .ok t) ↔ ∃ σ, ∀ c ∈ cs, c.Holds σ) ∧
    ∀ t, solve n cs [] = .ok t → ∃ σ : Nat → Bool, (∀ x < n, t.probe x = some (σ x)) ∧
      (∀ c ∈ cs, c.Holds σ) ∧ ∀ τ, (∀ c ∈ cs, c.Holds τ) → ∀ x < n, σ x = true → τ x = true := by
  refine ⟨⟨fun ⟨t, h⟩ => ?_, fun ⟨σ, h⟩ => ?_⟩, fun t h => ?_⟩
  · obtain ⟨σ, _, h2⟩ := C86_sound n cs [] t (by simp) h
    exact ⟨σ, fun c hc => h2 c (by simpa using hc)⟩
  · obtain ⟨t, h1, _⟩ := C86_least_partial n cs σ (fun c hc => (strict_iff (hv c hc)).mpr (h c hc))
    exact ⟨t, h1⟩
  · obtain ⟨σ, h1, h2⟩ := C86_sound n cs [] t (by simp) h
    refine ⟨σ, h1, fun c hc => h2 c (by simpa using hc), fun τ hτ x hx hs => ?_⟩
    obtain ⟨t', h3, h4⟩ := C86_least_partial n cs τ (fun c hc => (strict_iff (hv c hc)).mpr (hτ c hc))
    rw [h] at h3
    cases h3
    exact h4 x (by rw [h1 x hx, hs])

/-- **C86**: without such uses, the order of the statements does not matter: the same functions are
accepted, with the same mutabilities. -/
theorem C86_order_partial (n : Nat) (cs cs' : List Con) (hp : cs.Perm cs')
    (hv : ∀ c ∈ cs, c.twoVars = false) (hb : ∀ c ∈ cs, c.below n) (t : Table)
    (h : solve n cs [] = .ok t) :
    ∃ t', solve n cs' [] = .ok t' ∧ ∀ x < n, t'.probe x = t.probe x := by
  have hv' : ∀ c ∈ cs', c.twoVars = false := fun c hc => hv c (hp.mem_iff.mpr hc)
  have hb' : ∀ c ∈ cs', c.below n := fun c hc => hb c (hp.mem_iff.mpr hc)
  obtain ⟨σ, h1, h2, h3⟩ := (C86_exact n cs hv hb).2 t h
  obtain ⟨t', h'⟩ := (C86_exact n cs' hv' hb').1.mpr ⟨σ, fun c hc => h2 c (hp.mem_iff.mpr hc)⟩
  obtain ⟨σ', h1', h2', h3'⟩ := (C86_exact n cs' hv' hb').2 t' h'
  refine ⟨t', h', fun x hx => ?_⟩
  rw [h1 x hx, h1' x hx]
  have a := h3 σ' (fun c hc => h2' c (hp.mem_iff.mp hc)) x hx
  have b := h3' σ (fun c hc => h2 c (hp.mem_iff.mpr hc)) x hx
  cases ha : σ x <;> cases hb : σ' x <;> simp_all

/-- **C86**: what comes later never changes a mutability; it is only compared. -/
theorem C86_later (n : Nat) (first later : List Con) (t : Table) (hb : ∀ c ∈ later, c.below n)
    (h : solve n first [] = .ok t) :
    ((∃ t', solve n first later = .ok t') ↔
      ∀ σ : Nat → Bool, (∀ x < n, t.probe x = some (σ x)) → ∀ c ∈ later, c.Holds σ) ∧
    ∀ t', solve n first later = .ok t' → t' = t := by
  simp only [solve] at h ⊢
  rcases steps_spec first (Wf.new n) with ⟨t₁, h1, d1⟩ | ⟨c, hc, h1, h2⟩
  · simp only [h1, steps] at h ⊢
    cases h
    obtain ⟨hw, hs, _, _, hcl⟩ := closeFrom_spec n t₁ 0 d1.wf
    have hcl' : ∀ y < n, (closeFrom t₁ 0 n).probe y ≠ none := fun y hy => hcl y (Nat.zero_le _) (by omega)
    refine ⟨?_, fun t' h' => steps_closed hcl' hb h'⟩
    rw [steps_closed_iff hw ⟨n, hcl', hb⟩]
    refine ⟨fun h σ hσ c hc => ?_, fun h => h _ (fun x hx => read_some (hcl' x hx))⟩
    have hu : ∀ m : MutTy, m.below n → m.under σ = m.under (closeFrom t₁ 0 n).read := by
      intro m hm
      cases m with
      | val b => rfl
      | var x => simp only [MutTy.under, Table.read, hσ x hm, Option.getD_some]
    have hh := h c hc
    have hbc := hb c hc
    cases c with
    | same c e =>
      simp only [Con.Holds] at hh ⊢
      rw [hu c hbc.1, hu e hbc.2]
      exact hh
    | atLeast c e =>
      simp only [Con.Holds] at hh ⊢
      rw [hu c hbc.1, hu e hbc.2]
      exact hh
  · simp only [h1] at h
    cases h

/-- **C86**: an error "must be mutable" comes from a use as mutable, an error "must be equal" from an
equality; the error "must be constant" never occurs. -/
theorem C86_errors (n : Nat) (first later : List Con) (w : What)
    (h : solve n first later = .error w) :
    (w = .mutable ∧ ∃ c e, Con.atLeast c e ∈ first ++ later) ∨
    (w = .equal ∧ ∃ c e, Con.same c e ∈ first ++ later) := by
  have key : ∃ c ∈ first ++ later, w = kind c := by
    simp only [solve] at h
    rcases steps_spec first (Wf.new n) with ⟨t₁, h1, d1⟩ | ⟨c, hc, h1, h2⟩
    · simp only [h1] at h
      rcases steps_spec later (closeFrom_spec n t₁ 0 d1.wf).1 with ⟨t₂, h3, _⟩ | ⟨c, hc, h3, _⟩
      · rw [h3] at h
        cases h
      · rw [h3] at h
        cases h
        exact ⟨c, List.mem_append_right _ hc, rfl⟩
    · simp only [h1] at h
      cases h
      exact ⟨c, List.mem_append_left _ hc, rfl⟩
  obtain ⟨c, hc, rfl⟩ := key
  cases c with
  | same c e => exact .inr ⟨rfl, c, e, hc⟩
  | atLeast c e => exact .inl ⟨rfl, c, e, hc⟩

/-- **C86**: the constraints which are not recorded would have changed nothing. -/
theorem C86_recorded (n : Nat) (first later : List Con) :
    solve n (first.filter recorded) later = solve n first later := by
  simp only [solve, steps_recorded]

/-! ### Examples -/

/-- `fn f(x, y, z) { x = y; g(y); h(z) }` where `h` is of the type of `f` in its first parameter, with
`x` mutable, `z` as `x` and `y` constant. -/
def sampleCons : List Con :=
  [.same (.var 2) (.var 0), .atLeast (.var 0) (.val true), .atLeast (.val false) (.var 1)]

example : (∀ c ∈ sampleCons, c.twoVars = false) ∧ (∀ c ∈ sampleCons, c.below 3) ∧
    (∃ t, solve 3 sampleCons [.atLeast (.var 2) (.var 1)] = .ok t ∧
      t.probe 0 = some true ∧ t.probe 1 = some false ∧ t.probe 2 = some true) ∧
    solve 3 sampleCons [.atLeast (.var 1) (.var 2)] = .error .mutable := by
  refine ⟨by decide, ?_, ⟨_, rfl, rfl, rfl, rfl⟩, rfl⟩
  intro c hc
  fin_cases hc <;> simp [Con.below, MutTy.below]

/-- Two joined variables which nothing forces are constant. -/
example : ∃ t, solve 2 [.atLeast (.var 0) (.var 1)] [] = .ok t ∧ t.probe 0 = some false ∧
    t.probe 1 = some false ∧ Con.Strict (fun _ => false) (.atLeast (.var 0) (.var 1)) :=
  ⟨_, rfl, rfl, rfl, rfl⟩

/-- Equality with a resolved mutability, on either side. -/
example : (∃ t, solve 2 [.same (.var 0) (.val true), .same (.val true) (.var 1)] [] = .ok t ∧
      t.probe 0 = some true ∧ t.probe 1 = some true) ∧
    solve 1 [.same (.var 0) (.val true), .same (.val false) (.var 0)] [] = .error .equal ∧
    solve 1 [.same (.var 0) (.val true), .atLeast (.val false) (.var 0)] [] = .error .mutable :=
  ⟨⟨_, rfl, rfl, rfl⟩, rfl, rfl⟩

/-! ### Variables used for other variables -/

/-- `fn f(x, y) { let mut a = 1; f(a, x); x = 1; f(a, 2) }`: `x` is used where `y` is expected, is
assigned, and `y` is given a constant. -/
def rejectedCons : List Con :=
  [.atLeast (.var 0) (.var 1), .atLeast (.var 0) (.val true), .atLeast (.val false) (.var 1)]

/-- There is a solution (`x` mutable, `y` not) and the function is rejected. -/
theorem C86_complete_violated :
    (∃ σ, ∀ c ∈ rejectedCons, c.Holds σ) ∧ solve 2 rejectedCons [] = .error .mutable := by
  refine ⟨⟨fun x => decide (x = 0), ?_⟩, rfl⟩
  intro c hc
  fin_cases hc <;> simp [Con.Holds, MutTy.under]

/-- With the assignment before the first call the function is accepted. -/
theorem C86_order_violated : ∃ cs, rejectedCons.Perm cs ∧ ∃ t, solve 2 cs [] = .ok t :=
  ⟨[.atLeast (.var 0) (.val true), .atLeast (.var 0) (.var 1), .atLeast (.val false) (.var 1)],
    List.Perm.swap .., _, rfl⟩

/-- `fn f(x, y) { let mut a = 1; f(a, x); x = 1 }`: the parameter `y` becomes mutable although nothing
requires it, so that callers must give a mutable place. -/
theorem C86_needless_violated :
    ∃ t, solve 2 [.atLeast (.var 0) (.var 1), .atLeast (.var 0) (.val true)] [] = .ok t ∧
      t.probe 1 = some true ∧
      ∃ σ : Nat → Bool, σ 1 = false ∧
        ∀ c ∈ [Con.atLeast (.var 0) (.var 1), .atLeast (.var 0) (.val true)], c.Holds σ := by
  refine ⟨_, rfl, rfl, fun x => decide (x = 0), rfl, ?_⟩
  intro c hc
  fin_cases hc <;> simp [Con.Holds, MutTy.under]

/-- A mutability which is only required by a comparison of function types comes too late: the
variable is already constant. -/
theorem C86_late_violated :
    (∃ σ, Con.Holds σ (.atLeast (.var 0) (.val true))) ∧
    solve 1 [] [.atLeast (.var 0) (.val true)] = .error .mutable :=
  ⟨⟨fun _ => true, fun _ => rfl⟩, rfl⟩

end Ferlium.Mutability
