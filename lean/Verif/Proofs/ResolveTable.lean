import Verif.Proofs.ResolveSpec

/-!
The table during the search for an implementation.
-/
namespace Ferlium.Resolve
open Ferlium.Unify Ferlium.Coherence

variable {S : Head → List (Option Nat) → Prop}

mutual

theorem closed_isConstant : ∀ t : Ty, Closed t → t.isConstant = true
  | .never, _ => by rw [Ty.isConstant]
  | .var v, h => by have := h v; simp [Ty.contains] at this
  | .node _ args, h => by
    rw [Ty.isConstant]
    exact closed_isConstantArgs args fun v => by simpa [Ty.contains] using h v

theorem closed_isConstantArgs : ∀ a : Args, (∀ v, a.contains v = false) → a.isConstant = true
  | .nil, _ => by rw [Args.isConstant]
  | .cons _ t rest, h => by
    rw [Args.isConstant, closed_isConstant t fun v => by have := h v; simp [Args.contains] at this; simp [this],
      closed_isConstantArgs rest fun v => by have := h v; simp [Args.contains] at this; simp [this]]
    rfl

end

theorem all_constant {l : List Ty} : l.all (·.isConstant) = true ↔ ∀ t ∈ l, Closed t := by
  rw [List.all_eq_true]
  exact ⟨fun h t ht => isConstant_closed t (h t ht), fun h t ht => closed_isConstant t (h t ht)⟩

/-- The type is closed under an assignment exactly if the assignment is closed at its variables. -/
theorem closed_subst {θ : Nat → Ty} {t : Ty} : Closed (t.subst θ) ↔ ∀ v, t.contains v = true → Closed (θ v) := by
  constructor
  · intro h v hv w
    by_contra hc
    rw [Bool.not_eq_false] at hc
    have := h w
    rw [Bool.eq_false_iff] at this
    exact this (Ty.contains_subst t |>.2 ⟨v, hv, hc⟩)
  · intro h w
    by_contra hc
    rw [Bool.not_eq_false, Ty.contains_subst] at hc
    obtain ⟨v, hv, hc⟩ := hc
    rw [h v hv w] at hc
    cases hc

/-- What is assigned has no `never` and is made as `S` says. -/
def Good (S : Head → List (Option Nat) → Prop) (ρ : Nat → Ty) : Prop := ∀ v, (ρ v).NoNever ∧ (ρ v).Sorted S

theorem Plain.good {ρ : Nat → Ty} (h : ∀ v, Plain S (ρ v)) : Good S ρ := fun v => (h v).2

theorem Plain.subst {ρ : Nat → Ty} (h : ∀ v, Plain S (ρ v)) {t : Ty} (hs : t.Sorted S) (hn : t.NoNever) : Plain S (t.subst ρ) :=
  ⟨closed_subst.2 fun v _ => (h v).1, noNever_subst (fun v => (h v).2.1) t hn, Ty.sorted_subst t hs fun v _ => (h v).2.2⟩

/-- The table is that of the variables of an implementation. -/
structure TableOk (S : Head → List (Option Nat) → Prop) (n : Nat) (tab : Table) (θ : Nat → Ty) : Prop where
  tri : Tri tab θ
  sorted : SortedTable S tab
  noNever : NoNeverTable tab
  length : tab.length = n

theorem TableOk.good {n : Nat} {tab : Table} {θ : Nat → Ty} (h : TableOk S n tab θ) : Good S θ :=
  fun v => ⟨tri_noNever h.tri h.noNever v, h.tri.sorted h.sorted v⟩

theorem TableOk.fresh (n : Nat) : TableOk S n (fresh n) Ty.var :=
  ⟨tri_fresh n, sorted_fresh n, noNever_fresh n, by simp [Unify.fresh]⟩

theorem fresh_respects (n : Nat) (ρ : Nat → Ty) : Respects (fresh n) ρ := by
  intro v t h
  unfold fresh at h
  have := List.mem_of_getElem? h
  simp at this

/-- Solving equations between lists of equal length. -/
theorem solve_lists (hS : Tidy S) (pick : Nat → Nat → Bool) {n : Nat} {tab : Table} {θ : Nat → Ty} (h : TableOk S n tab θ)
    {a b : List Ty} (hl : a.length = b.length) (ha : ∀ t ∈ a, TyOk S n t ∧ t.NoNever) (hb : ∀ t ∈ b, TyOk S n t ∧ t.NoNever) :
    ∃ r, Unify.solve pick tab (a.zip b) = some r ∧
      (∀ tab', r = .ok tab' → ∃ θ', TableOk S n tab' θ' ∧ (∀ ρ, Respects tab' ρ → Respects tab ρ) ∧
        ∀ ρ, Respects tab' ρ → Good S ρ → a.map (·.subst ρ) = b.map (·.subst ρ)) ∧
      ∀ ρ, Respects tab ρ → a.map (·.subst ρ) = b.map (·.subst ρ) → ∃ tab', r = .ok tab' ∧ Respects tab' ρ := by
  have hwf : ∀ e ∈ a.zip b, InTable tab e.1 ∧ InTable tab e.2 ∧ e.1.Sorted S ∧ e.2.Sorted S := by
    intro e he
    have h1 := (ha _ (List.of_mem_zip he).1).1
    have h2 := (hb _ (List.of_mem_zip he).2).1
    unfold InTable
    rw [h.length]
    exact ⟨h1.1, h2.1, h1.2, h2.2⟩
  obtain ⟨r, hr, hp⟩ := solve_spec (pick := pick) hS.named _ _ _ h.tri h.sorted hwf
  refine ⟨r, hr, ?_, ?_⟩
  · rintro tab' rfl
    obtain ⟨p1, ⟨θ', p2⟩, p3, -, p5, -⟩ := hp
    refine ⟨θ', ⟨p2, p3, solve_noNever _ _ _ _ hr h.noNever fun e he => ?_, p1.trans h.length⟩, fun ρ hρ => (p5 ρ hρ).1, ?_⟩
    · exact ⟨(ha _ (List.of_mem_zip he).1).2, (hb _ (List.of_mem_zip he).2).2⟩
    · intro ρ hρ hg
      refine zip_eq hl fun e he => ?_
      have h1 := ha _ (List.of_mem_zip he).1
      have h2 := hb _ (List.of_mem_zip he).2
      exact (sameShape hS ((p5 ρ hρ).2 e he) (Ty.sorted_subst _ h1.1.2 fun v _ => (hg v).2)
        (Ty.sorted_subst _ h2.1.2 fun v _ => (hg v).2)).eq (noNever_subst (fun v => (hg v).1) _ h1.2)
        (noNever_subst (fun v => (hg v).1) _ h2.2)
  · intro ρ hρ he
    cases r with
    | error e => exact absurd (fun x hx => zip_goal _ _ he x hx) (hp ρ hρ)
    | ok tab' => exact ⟨tab', rfl, hp.2.2.2.2.2 ρ hρ fun x hx => zip_goal _ _ he x hx⟩

/-- A constraint for a choice of the variables. -/
def _root_.Ferlium.Coherence.Constraint.inst (ρ : Nat → Ty) : Constraint → Constraint
  | .haveTrait t ins outs => .haveTrait t (ins.map (·.subst ρ)) (outs.map (·.subst ρ))
  | .other => .other

theorem normConstraint_eq {n : Nat} {tab : Table} {θ : Nat → Ty} (h : TableOk S n tab θ) {c : Constraint} (hc : ConstraintOk S n c) :
    normConstraint tab c = some (c.inst θ) := by
  cases c with
  | other => rfl
  | haveTrait t ins outs =>
    rw [normConstraint, mapM_normalize (S := S) h.tri ins (by rw [h.length]; exact hc.1),
      mapM_normalize (S := S) h.tri outs (by rw [h.length]; exact hc.2)]
    rfl

theorem inst_inst {θ ρ : Nat → Ty} {tab : Table} (h : Tri tab θ) (hρ : Respects tab ρ) (c : Constraint) : (c.inst θ).inst ρ = c.inst ρ := by
  cases c with
  | other => rfl
  | haveTrait t ins outs =>
    show Constraint.haveTrait _ _ _ = Constraint.haveTrait _ _ _
    rw [map_agree h hρ, map_agree h hρ]

theorem constraintOk_inst {n : Nat} {tab : Table} {θ : Nat → Ty} (h : TableOk S n tab θ) {c : Constraint} (hc : ConstraintOk S n c) :
    ConstraintOk S n (c.inst θ) := by
  cases c with
  | other => trivial
  | haveTrait t ins outs =>
    refine ⟨fun t ht => ?_, fun t ht => ?_⟩
    · obtain ⟨u, hu, rfl⟩ := List.mem_map.1 ht
      have := TyOk.norm h.tri h.sorted (S := S) (t := u) (by rw [h.length]; exact hc.1 u hu)
      rw [h.length] at this
      exact this
    · obtain ⟨u, hu, rfl⟩ := List.mem_map.1 ht
      have := TyOk.norm h.tri h.sorted (S := S) (t := u) (by rw [h.length]; exact hc.2 u hu)
      rw [h.length] at this
      exact this

/-- The constraint has no `never`, and as many types as the trait says. -/
def Shaped (arity : Nat → Nat × Nat) : Constraint → Prop
  | .haveTrait t ins outs => (ins.length = (arity t).1 ∧ ∀ t ∈ ins, t.NoNever) ∧ outs.length = (arity t).2 ∧ ∀ t ∈ outs, t.NoNever
  | .other => False

theorem shaped_inst {arity : Nat → Nat × Nat} {θ : Nat → Ty} (h : Good S θ) {c : Constraint} (hc : Shaped arity c) :
    Shaped arity (c.inst θ) := by
  cases c with
  | other => exact hc
  | haveTrait t ins outs =>
    obtain ⟨⟨h1, h2⟩, h3, h4⟩ := hc
    refine ⟨⟨by simpa using h1, fun t ht => ?_⟩, by simpa using h3, fun t ht => ?_⟩
    · obtain ⟨u, hu, rfl⟩ := List.mem_map.1 ht
      exact noNever_subst (fun v => (h v).1) _ (h2 u hu)
    · obtain ⟨u, hu, rfl⟩ := List.mem_map.1 ht
      exact noNever_subst (fun v => (h v).1) _ (h4 u hu)

theorem normPlaces_eq {n : Nat} {tab : Table} {θ : Nat → Ty} (h : TableOk S n tab θ) : ∀ {l : List Place},
    (∀ p ∈ l, ConstraintOk S n p.2) → normPlaces tab l = some (l.map fun p => (p.1, p.2.inst θ))
  | [], _ => rfl
  | p :: l, hl => by
    have ih := normPlaces_eq h (l := l) fun q hq => hl q (by simp [hq])
    unfold normPlaces at ih ⊢
    rw [List.mapM_cons, normConstraint_eq h (hl p (by simp)), ih]
    rfl

end Ferlium.Resolve
