import Verif.Proofs.SessionCascade
import Mathlib.Tactic

/-! The query for the modules affected by a change, and well-foundedness of the dependency graph. -/
namespace Ferlium.Session

variable {T U : Type}

theorem affectedLoop_spec (mods : List (Entry T U)) (root : Nat) : ∀ (n : Nat) (affected stack : List Nat),
    (mods.length - affected.length) * (mods.length + 1) + stack.length ≤ n → affected.Nodup →
    (∀ x ∈ affected, x < mods.length) →
    (∀ x ∈ stack, x < mods.length) →
    (∀ x, x ∈ affected ∨ x ∈ stack → Relation.TransGen (DepR mods) x root) →
    (∀ y x, y = root ∨ y ∈ affected → DepR mods x y → x ∈ affected ∨ x ∈ stack) →
    ∃ l, affectedLoop mods affected stack = some l ∧ l.Nodup ∧ ∀ x, x ∈ l ↔ Relation.TransGen (DepR mods) x root := by
  intro n
  induction n with
  | zero =>
    intro affected stack hn h1 h2 h3 h4 h5
    have : stack = [] := by rw [← List.length_eq_zero_iff]; omega
    subst this
    rw [affectedLoop]
    refine ⟨affected, rfl, h1, fun x => ⟨fun hx => h4 x (Or.inl hx), fun hx => ?_⟩⟩
    induction hx using Relation.TransGen.head_induction_on with
    | single h => simpa using h5 root _ (Or.inl rfl) h
    | head h _ ih => simpa using h5 _ _ (Or.inr ih) h
  | succ n ih =>
    intro affected stack hn h1 h2 h3 h4 h5
    cases stack with
    | nil =>
      rw [affectedLoop]
      refine ⟨affected, rfl, h1, fun x => ⟨fun hx => h4 x (Or.inl hx), fun hx => ?_⟩⟩
      induction hx using Relation.TransGen.head_induction_on with
      | single h => simpa using h5 root _ (Or.inl rfl) h
      | head h _ ih => simpa using h5 _ _ (Or.inr ih) h
    | cons a stack =>
      rw [affectedLoop]
      rw [List.length_cons] at hn
      by_cases ha : affected.contains a = true
      · rw [if_pos ha]
        have ha' : a ∈ affected := by simpa using ha
        refine ih affected stack (by omega) h1 h2 (fun x hx => h3 x (by simp [hx])) ?_ ?_
        · intro x hx
          exact h4 x (hx.imp id (fun h => by simp [h]))
        · intro y x hy hxy
          rcases h5 y x hy hxy with h | h
          · exact Or.inl h
          · rcases List.mem_cons.1 h with h | h
            · exact Or.inl (h ▸ ha')
            · exact Or.inr h
      · rw [if_neg ha]
        have ha' : a ∉ affected := by simpa using ha
        have hal := h3 a (by simp)
        have hcount : affected.length < mods.length := by
          have hs : (a :: affected) ⊆ List.range mods.length := by
            intro x hx
            rcases List.mem_cons.1 hx with h | h
            · rw [h]; simpa using hal
            · simpa using h2 x h
          have := (List.subperm_of_subset (List.nodup_cons.2 ⟨ha', h1⟩) hs).length_le
          simpa using this
        have hdl := directDeps_length mods a
        refine ih (affected ++ [a]) ((directDeps mods a).reverse ++ stack) ?_ ?_ ?_ ?_ ?_ ?_
        · rw [List.length_append, List.length_append, List.length_reverse, List.length_singleton]
          have : mods.length - affected.length = (mods.length - (affected.length + 1)) + 1 := by omega
          rw [this, Nat.add_mul] at hn
          omega
        · rw [List.nodup_append]
          refine ⟨h1, by simp, ?_⟩
          intro x hx y hy hxy
          simp only [List.mem_singleton] at hy
          subst hy; subst hxy; exact ha' hx
        · intro x hx
          rcases List.mem_append.1 hx with h | h
          · exact h2 x h
          · simp only [List.mem_singleton] at h; rw [h]; exact hal
        · intro x hx
          rcases List.mem_append.1 hx with h | h
          · exact directDeps_lt (List.mem_reverse.1 h)
          · exact h3 x (by simp [h])
        · have hroot := h4 a (Or.inr (by simp))
          intro x hx
          simp only [List.mem_append, List.mem_singleton, List.mem_reverse] at hx
          rcases hx with (h | h) | (h | h)
          · exact h4 x (Or.inl h)
          · rw [h]; exact hroot
          · exact .head (mem_directDeps.1 h) hroot
          · exact h4 x (Or.inr (by simp [h]))
        · intro y x hy hxy
          simp only [List.mem_append, List.mem_singleton, List.mem_reverse] at hy ⊢
          by_cases hya : y = a
          · subst hya
            exact Or.inr (Or.inl (mem_directDeps.2 hxy))
          · have hy' : y = root ∨ y ∈ affected := by tauto
            rcases h5 y x hy' hxy with h | h
            · exact Or.inl (Or.inl h)
            · rcases List.mem_cons.1 h with h | h
              · exact Or.inl (Or.inr h)
              · exact Or.inr (Or.inr h)

theorem affectedBy_spec (mods : List (Entry T U)) (root : Nat) :
    ∃ l, affectedBy mods root = some l ∧ l.Nodup ∧ ∀ x, x ∈ l ↔ Relation.TransGen (DepR mods) x root := by
  refine affectedLoop_spec mods root _ [] (directDeps mods root).reverse (le_refl _) (by simp) (by simp) ?_ ?_ ?_
  · intro x hx; exact directDeps_lt (List.mem_reverse.1 hx)
  · intro x hx
    simp only [List.not_mem_nil, false_or, List.mem_reverse] at hx
    exact .single (mem_directDeps.1 hx)
  · intro y x hy hxy
    simp only [List.not_mem_nil, or_false] at hy
    subst hy
    exact Or.inr (List.mem_reverse.2 (mem_directDeps.2 hxy))

/-- Every stale module has, among its transitive dependencies or itself, a stale one that failed or has no source. -/
theorem stale_cause {sources : List T} {mods : List (Entry T U)} (h : Inv sources (fun _ => False) mods) :
    ∀ (x : Nat) (e : Entry T U), mods[x]? = some e → e.stale = true →
      ∃ y ey, Relation.ReflTransGen (DepR mods) x y ∧ mods[y]? = some ey ∧ ey.stale = true ∧ (ey.failed = true ∨ ey.src = none) := by
  -- the dependency relation on the finitely many modules is well founded
  have hwf : WellFounded (fun a b : Fin mods.length => Relation.TransGen (DepR mods) b.1 a.1) := by
    haveI : IsTrans (Fin mods.length) (fun a b : Fin mods.length => Relation.TransGen (DepR mods) b.1 a.1) :=
      ⟨fun a b c hab hbc => hbc.trans hab⟩
    haveI : Std.Irrefl (fun a b : Fin mods.length => Relation.TransGen (DepR mods) b.1 a.1) := ⟨fun a => h.acyclic a.1⟩
    exact Finite.wellFounded_of_trans_of_irrefl _
  have main : ∀ z : Fin mods.length, ∀ e : Entry T U, mods[z.1]? = some e → e.stale = true →
      ∃ y ey, Relation.ReflTransGen (DepR mods) z.1 y ∧ mods[y]? = some ey ∧ ey.stale = true ∧ (ey.failed = true ∨ ey.src = none) := by
    intro z
    induction z using hwf.induction with
    | _ z ih =>
      intro e he hs
      by_cases hf : e.failed = true
      · exact ⟨z.1, e, .refl, he, hs, Or.inl hf⟩
      by_cases hsrc : e.src = none
      · exact ⟨z.1, e, .refl, he, hs, Or.inr hsrc⟩
      have : ∃ d ∈ e.deps, ¬ FreshAt mods d := by
        by_contra hc
        push Not at hc
        exact h.live z.1 e he hs (by cases h' : e.src with | none => exact absurd h' hsrc | some _ => rfl) (by simpa using hf) hc
      obtain ⟨d, hd, hnf⟩ := this
      have hdl := h.range z.1 e he d hd
      obtain ⟨ed, hed⟩ : ∃ ed, mods[d]? = some ed := ⟨_, List.getElem?_eq_getElem hdl⟩
      have hds : ed.stale = true := by
        by_contra hc
        exact hnf ⟨ed, hed, by simpa using hc⟩
      obtain ⟨y, ey, h1, h2⟩ := ih ⟨d, hdl⟩ (.single ⟨e, he, hd⟩) ed hed hds
      exact ⟨y, ey, .head ⟨e, he, hd⟩ h1, h2⟩
  intro x e he hs
  exact main ⟨x, (List.getElem?_eq_some_iff.1 he).1⟩ e he hs

end Ferlium.Session
