import Verif.Model.Unify
import Mathlib.Tactic

/-!
Unification of types: the table stays triangular, unification ends, and its result is the most general one.
-/
namespace Ferlium.Unify

mutual

/-- An assignment applied to a type. -/
def Ty.subst (ρ : Nat → Ty) : Ty → Ty
  | .never => .never
  | .var v => ρ v
  | .node h args => .node h (args.subst ρ)

/-- The same for the parts. -/
def Args.subst (ρ : Nat → Ty) : Args → Args
  | .nil => .nil
  | .cons name t rest => .cons name (t.subst ρ) (rest.subst ρ)

end

mutual

/-- The number of nodes. -/
def Ty.size : Ty → Nat
  | .never => 1
  | .var _ => 1
  | .node _ args => args.size + 1

/-- The same for the parts. -/
def Args.size : Args → Nat
  | .nil => 0
  | .cons _ t rest => t.size + rest.size

end

/-- The assignment agrees with everything in the table. -/
def Respects (tab : Table) (ρ : Nat → Ty) : Prop := ∀ (v : Nat) (t : Ty), tab[v]? = some (some t) → ρ v = t.subst ρ

/-- Every variable of the type is in the table. -/
def InTable (tab : Table) (t : Ty) : Prop := ∀ v, t.contains v = true → v < tab.length

/-- The table has no cycles, and `θ` is what it stands for. -/
structure Tri (tab : Table) (θ : Nat → Ty) : Prop where
  bound : ∀ (v : Nat) (t : Ty), tab[v]? = some (some t) → θ v = t.subst θ
  free : ∀ v : Nat, (∀ t, tab[v]? ≠ some (some t)) → θ v = .var v
  vars : ∀ (v : Nat) (t : Ty), tab[v]? = some (some t) → InTable tab t
  rank : ∃ rank : Nat → Nat, ∀ (v : Nat) (t : Ty), tab[v]? = some (some t) → ∀ w, t.contains w = true → rank w < rank v

mutual

theorem Ty.subst_congr {ρ ρ' : Nat → Ty} : ∀ t : Ty, (∀ v, t.contains v = true → ρ v = ρ' v) → t.subst ρ = t.subst ρ'
  | .never, _ => by simp [Ty.subst]
  | .var v, h => by simpa [Ty.subst] using h v (by simp [Ty.contains])
  | .node k args, h => by
    rw [Ty.subst, Ty.subst, Args.subst_congr args (fun v hv => h v (by simpa [Ty.contains] using hv))]

theorem Args.subst_congr {ρ ρ' : Nat → Ty} : ∀ a : Args, (∀ v, a.contains v = true → ρ v = ρ' v) → a.subst ρ = a.subst ρ'
  | .nil, _ => by simp [Args.subst]
  | .cons n t rest, h => by
    rw [Args.subst, Args.subst, Ty.subst_congr t (fun v hv => h v (by simp [Args.contains, hv])),
      Args.subst_congr rest (fun v hv => h v (by simp [Args.contains, hv]))]

end

mutual

theorem Ty.subst_var : ∀ t : Ty, t.subst Ty.var = t
  | .never => by simp [Ty.subst]
  | .var v => by simp [Ty.subst]
  | .node k args => by rw [Ty.subst, Args.subst_var args]

theorem Args.subst_var : ∀ a : Args, a.subst Ty.var = a
  | .nil => by simp [Args.subst]
  | .cons n t rest => by rw [Args.subst, Ty.subst_var t, Args.subst_var rest]

end

mutual

theorem Ty.subst_subst {ρ ρ' : Nat → Ty} : ∀ t : Ty, (t.subst ρ).subst ρ' = t.subst (fun v => (ρ v).subst ρ')
  | .never => by simp [Ty.subst]
  | .var v => by simp [Ty.subst]
  | .node k args => by rw [Ty.subst, Ty.subst, Ty.subst, Args.subst_subst args]

theorem Args.subst_subst {ρ ρ' : Nat → Ty} : ∀ a : Args, (a.subst ρ).subst ρ' = a.subst (fun v => (ρ v).subst ρ')
  | .nil => by simp [Args.subst]
  | .cons n t rest => by rw [Args.subst, Args.subst, Args.subst, Ty.subst_subst t, Args.subst_subst rest]

end

mutual

theorem Ty.contains_subst {ρ : Nat → Ty} {w : Nat} : ∀ t : Ty, (t.subst ρ).contains w = true ↔
    ∃ v, t.contains v = true ∧ (ρ v).contains w = true
  | .never => by simp [Ty.subst, Ty.contains]
  | .var v => by simp [Ty.subst, Ty.contains]
  | .node k args => by rw [Ty.subst, Ty.contains, Args.contains_subst args]; simp [Ty.contains]

theorem Args.contains_subst {ρ : Nat → Ty} {w : Nat} : ∀ a : Args, (a.subst ρ).contains w = true ↔
    ∃ v, a.contains v = true ∧ (ρ v).contains w = true
  | .nil => by simp [Args.subst, Args.contains]
  | .cons n t rest => by
    rw [Args.subst, Args.contains, Bool.or_eq_true, Ty.contains_subst t, Args.contains_subst rest]
    simp only [Args.contains, Bool.or_eq_true]
    constructor
    · rintro (⟨v, h1, h2⟩ | ⟨v, h1, h2⟩)
      · exact ⟨v, .inl h1, h2⟩
      · exact ⟨v, .inr h1, h2⟩
    · rintro ⟨v, h1 | h1, h2⟩
      · exact .inl ⟨v, h1, h2⟩
      · exact .inr ⟨v, h1, h2⟩

end

theorem Ty.size_pos (t : Ty) : 0 < t.size := by cases t <;> simp [Ty.size]

theorem Args.length_subst {ρ : Nat → Ty} : ∀ a : Args, (a.subst ρ).length = a.length
  | .nil => by simp [Args.subst, Args.length]
  | .cons n t rest => by simp [Args.subst, Args.length, Args.length_subst rest]

mutual

/-- A part is smaller than the whole. -/
theorem Ty.size_contains {ρ : Nat → Ty} {v : Nat} : ∀ t : Ty, t.contains v = true → (ρ v).size ≤ (t.subst ρ).size
  | .never, h => by simp [Ty.contains] at h
  | .var w, h => by
    simp [Ty.contains] at h
    subst h
    simp [Ty.subst]
  | .node k args, h => by
    rw [Ty.contains] at h
    have := Args.size_contains (ρ := ρ) args h
    rw [Ty.subst, Ty.size]
    omega

theorem Args.size_contains {ρ : Nat → Ty} {v : Nat} : ∀ a : Args, a.contains v = true → (ρ v).size ≤ (a.subst ρ).size
  | .nil, h => by simp [Args.contains] at h
  | .cons n t rest, h => by
    rw [Args.contains, Bool.or_eq_true] at h
    rw [Args.subst, Args.size]
    rcases h with h | h
    · have := Ty.size_contains (ρ := ρ) t h; omega
    · have := Args.size_contains (ρ := ρ) rest h; omega

end

variable {tab : Table} {θ : Nat → Ty}

/-- The assignment of the table leaves only unbound variables. -/
theorem Tri.fixed (h : Tri tab θ) (v w : Nat) (hw : (θ v).contains w = true) : ∀ t, tab[w]? ≠ some (some t) := by
  obtain ⟨rank, hr⟩ := h.rank
  suffices H : ∀ k v, rank v ≤ k → ∀ w, (θ v).contains w = true → ∀ t, tab[w]? ≠ some (some t) from H _ v le_rfl w hw
  clear hw v w
  intro k
  induction k with
  | zero =>
    intro v hv w hw
    by_cases hb : ∃ t, tab[v]? = some (some t)
    · obtain ⟨t, ht⟩ := hb
      rw [h.bound v t ht, Ty.contains_subst] at hw
      obtain ⟨u, hu, _⟩ := hw
      have := hr v t ht u hu
      omega
    · push Not at hb
      rw [h.free v hb] at hw
      simp [Ty.contains] at hw
      subst hw
      exact hb
  | succ k ih =>
    intro v hv w hw
    by_cases hb : ∃ t, tab[v]? = some (some t)
    · obtain ⟨t, ht⟩ := hb
      rw [h.bound v t ht, Ty.contains_subst] at hw
      obtain ⟨u, hu, hw⟩ := hw
      have := hr v t ht u hu
      exact ih u (by omega) w hw
    · push Not at hb
      rw [h.free v hb] at hw
      simp [Ty.contains] at hw
      subst hw
      exact hb

theorem Tri.idem (h : Tri tab θ) (v : Nat) : (θ v).subst θ = θ v := by
  conv_rhs => rw [← Ty.subst_var (θ v)]
  exact Ty.subst_congr _ fun w hw => h.free w (h.fixed v w hw)

theorem Tri.idem_ty (h : Tri tab θ) (t : Ty) : (t.subst θ).subst θ = t.subst θ := by
  rw [Ty.subst_subst]
  exact Ty.subst_congr _ fun v _ => h.idem v

theorem Tri.inTable (h : Tri tab θ) {v : Nat} (hv : v < tab.length) : InTable tab (θ v) := by
  obtain ⟨rank, hr⟩ := h.rank
  suffices H : ∀ k v, v < tab.length → rank v ≤ k → InTable tab (θ v) from H _ v hv le_rfl
  clear hv v
  intro k
  induction k using Nat.strong_induction_on with
  | _ k ih =>
    intro v hv hk w hw
    by_cases hb : ∃ t, tab[v]? = some (some t)
    · obtain ⟨t, ht⟩ := hb
      rw [h.bound v t ht, Ty.contains_subst] at hw
      obtain ⟨u, hu, hw⟩ := hw
      have := hr v t ht u hu
      exact ih (rank u) (by omega) u (h.vars v t ht u hu) le_rfl w hw
    · push Not at hb
      rw [h.free v hb] at hw
      simp [Ty.contains] at hw
      subst hw
      exact hv

theorem Tri.inTable_subst (h : Tri tab θ) {t : Ty} (ht : InTable tab t) : InTable tab (t.subst θ) := by
  intro w hw
  rw [Ty.contains_subst] at hw
  obtain ⟨v, hv, hw⟩ := hw
  exact h.inTable (ht v hv) w hw

/-- The assignment of the table respects it. -/
theorem Tri.respects (h : Tri tab θ) : Respects tab θ := h.bound

/-- Every assignment which respects the table sees no difference between a type and its normal form. -/
theorem Tri.agree (h : Tri tab θ) {ρ : Nat → Ty} (hρ : Respects tab ρ) (t : Ty) : (t.subst θ).subst ρ = t.subst ρ := by
  rw [Ty.subst_subst]
  refine Ty.subst_congr _ fun v _ => ?_
  obtain ⟨rank, hr⟩ := h.rank
  suffices H : ∀ k v, rank v ≤ k → (θ v).subst ρ = ρ v from H _ v le_rfl
  intro k
  induction k using Nat.strong_induction_on with
  | _ k ih =>
    intro v hk
    by_cases hb : ∃ t, tab[v]? = some (some t)
    · obtain ⟨t, ht⟩ := hb
      rw [h.bound v t ht, hρ v t ht, Ty.subst_subst]
      refine Ty.subst_congr _ fun w hw => ?_
      have := hr v t ht w hw
      exact ih (rank w) (by omega) w le_rfl
    · push Not at hb
      rw [h.free v hb, Ty.subst]

mutual

theorem normalize_of (h : ∀ v t, tab[v]? = some (some t) → θ v = t.subst θ)
    (hf : ∀ v : Nat, (∀ t, tab[v]? ≠ some (some t)) → θ v = .var v) : ∀ t : Ty,
    (∀ v u, t.contains v = true → tab[v]? = some (some u) → normalize tab u = some (u.subst θ)) → InTable tab t →
    normalize tab t = some (t.subst θ)
  | .never, _, _ => by rw [normalize, Ty.subst]
  | .var v, hn, ht => by
    have hv := ht v (by simp [Ty.contains])
    rw [normalize, Ty.subst]
    cases hg : tab[v]? with
    | none => rw [List.getElem?_eq_none_iff] at hg; omega
    | some o =>
      cases o with
      | none => simp only; rw [hf v (by rw [hg]; simp)]
      | some u =>
        simp only
        rw [hn v u (by simp [Ty.contains]) hg, h v u hg]
  | .node k args, hn, ht => by
    rw [normalize, normalizeArgs_of h hf args (fun v u hv => hn v u (by simpa [Ty.contains] using hv))
      (fun v hv => ht v (by simpa [Ty.contains] using hv)), Ty.subst]
    rfl

theorem normalizeArgs_of (h : ∀ v t, tab[v]? = some (some t) → θ v = t.subst θ)
    (hf : ∀ v : Nat, (∀ t, tab[v]? ≠ some (some t)) → θ v = .var v) : ∀ a : Args,
    (∀ v u, a.contains v = true → tab[v]? = some (some u) → normalize tab u = some (u.subst θ)) →
    (∀ v, a.contains v = true → v < tab.length) → normalizeArgs tab a = some (a.subst θ)
  | .nil, _, _ => by rw [normalizeArgs, Args.subst]
  | .cons n t rest, hn, ht => by
    rw [normalizeArgs, normalize_of h hf t (fun v u hv => hn v u (by simp [Args.contains, hv]))
      (fun v hv => ht v (by simp [Args.contains, hv])),
      normalizeArgs_of h hf rest (fun v u hv => hn v u (by simp [Args.contains, hv]))
      (fun v hv => ht v (by simp [Args.contains, hv])), Args.subst]
    rfl

end

/-- Normalization ends and applies the assignment of the table. -/
theorem Tri.normalize (h : Tri tab θ) {t : Ty} (ht : InTable tab t) : normalize tab t = some (t.subst θ) := by
  obtain ⟨rank, hr⟩ := h.rank
  suffices H : ∀ k v u, rank v ≤ k → tab[v]? = some (some u) → Unify.normalize tab u = some (u.subst θ) from
    normalize_of h.bound h.free t (fun v u _ hu => H _ v u le_rfl hu) ht
  intro k
  induction k using Nat.strong_induction_on with
  | _ k ih =>
    intro v u hv hu
    refine normalize_of h.bound h.free u (fun w s hw hs => ?_) (h.vars v u hu)
    have := hr v u hu w hw
    exact ih (rank w) (by omega) w s le_rfl hs

/-- The assignment after a variable was given a value. -/
def extend (θ : Nat → Ty) (v : Nat) (t : Ty) (w : Nat) : Ty := (θ w).subst fun u => if u = v then t else .var u

/-- Giving a value to an unbound variable. -/
theorem Tri.bind (h : Tri tab θ) {v : Nat} {t : Ty} (hv : tab[v]? = some none) (ht : InTable tab t)
    (hfix : t.subst θ = t) (hc : t.contains v = false) : Tri (tab.set v (some t)) (extend θ v t) := by
  have hvl := (List.getElem?_eq_some_iff.1 hv).1
  have hget : ∀ w : Nat, w ≠ v → (tab.set v (some t))[w]? = tab[w]? := fun w hw => by
    rw [List.getElem?_set_ne (Ne.symm hw)]
  have hself : (tab.set v (some t))[v]? = some (some t) := List.getElem?_set_self hvl
  have hsub : ∀ s : Ty, s.subst (extend θ v t) = (s.subst θ).subst fun u => if u = v then t else .var u := by
    intro s
    rw [Ty.subst_subst]
    rfl
  have hδ : ∀ s : Ty, s.contains v = false → (s.subst fun u => if u = v then t else .var u) = s := by
    intro s hs
    conv_rhs => rw [← Ty.subst_var s]
    refine Ty.subst_congr _ fun u hu => ?_
    rw [if_neg]
    rintro rfl
    rw [hs] at hu
    cases hu
  have hθv : θ v = .var v := h.free v (by rw [hv]; simp)
  refine ⟨?_, ?_, ?_, ?_⟩
  · intro w s hs
    rw [hsub]
    unfold extend
    by_cases hw : w = v
    · subst hw
      rw [hself] at hs
      cases hs
      rw [hθv, hfix, Ty.subst, if_pos rfl, hδ _ hc]
    · rw [hget w hw] at hs
      rw [h.bound w s hs]
  · intro w hw
    unfold extend
    have hwv : w ≠ v := by
      rintro rfl
      exact hw t hself
    rw [hget w hwv] at hw
    rw [h.free w hw, Ty.subst, if_neg hwv]
  · intro w s hs
    unfold InTable
    rw [List.length_set]
    by_cases hw : w = v
    · subst hw
      rw [hself] at hs
      cases hs
      exact ht
    · rw [hget w hw] at hs
      exact h.vars w s hs
  · obtain ⟨rank, hr⟩ := h.rank
    classical
    refine ⟨fun w => if w = v then 1 else if ∃ s, tab[w]? = some (some s) then rank w + 2 else 0, ?_⟩
    intro w s hs u hu
    by_cases hw : w = v
    · subst hw
      rw [hself] at hs
      cases hs
      have hu' : u ≠ w := by rintro rfl; rw [hc] at hu; cases hu
      have hb : ¬ ∃ s, tab[u]? = some (some s) := by
        rw [← hfix, Ty.contains_subst] at hu
        obtain ⟨x, _, hx⟩ := hu
        push Not
        exact h.fixed x u hx
      simp [hu', hb]
    · rw [hget w hw] at hs
      have hb : ∃ s, tab[w]? = some (some s) := ⟨s, hs⟩
      simp only [if_neg hw, if_pos hb]
      have := hr w s hs u hu
      split_ifs <;> omega

end Ferlium.Unify
