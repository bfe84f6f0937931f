import Verif.Proofs.Effects
import Mathlib.Data.Set.Basic
import Mathlib.Order.SetNotation

/-!
C21: effect sets are a canonical set algebra.  `Built s S` says that the value `s` was obtained through the public
operations and that, read as an ordinary set expression, it stands for the set `S`.
-/
namespace Ferlium.Effects

open EffType

/-- The effects resulting from replacing the variables of `S` through a partial map to sets. -/
def substSet (S : Set Eff) (σ : Nat → Option (Set Eff)) : Set Eff :=
  {e | (∃ p, e = .prim p ∧ .prim p ∈ S) ∨ (∃ v, .var v ∈ S ∧ σ v = none ∧ e = .var v) ∨
    ∃ v T, .var v ∈ S ∧ σ v = some T ∧ e ∈ T}

/-- Values obtained through the public operations, with the set they should denote. -/
inductive Built : EffType → Set Eff → Prop
  | empty : Built EffType.empty ∅
  | single (e : Eff) : Built (EffType.single e) {e}
  | singlePrimitive (p : Prim) : Built (EffType.singlePrimitive p) {.prim p}
  | singleVariable (v : Nat) : Built (EffType.singleVariable v) {.var v}
  | multiple (es : List Eff) : Built (fromIter es) {e | e ∈ es}
  | multiplePrimitive (ps : List Prim) : Built (EffType.multiplePrimitive ps) {e | ∃ p ∈ ps, e = .prim p}
  | multipleVariable (vs : List Nat) : Built (EffType.multipleVariable vs) {e | ∃ v ∈ vs, e = .var v}
  | insert {s S} (h : Built s S) (e : Eff) : Built (s.insert e) (S ∪ {e})
  | union {s S t T} (hs : Built s S) (ht : Built t T) : Built (s.extend t) (S ∪ T)
  | instantiate {s S} (hs : Built s S) (subst : List (Nat × EffType)) (σ : Nat → Option (Set Eff))
      (hdom : ∀ v, (subst.lookup v).isSome = (σ v).isSome)
      (hval : ∀ v t T, subst.lookup v = some t → σ v = some T → Built t T) :
      Built (s.instantiate subst) (substSet S σ)

theorem instantiate_spec {s : EffType} (hs : Canon s) (subst : List (Nat × EffType)) (σ : Nat → Option (Set Eff))
    (hdom : ∀ v, (subst.lookup v).isSome = (σ v).isSome)
    (hval : ∀ v t T, subst.lookup v = some t → σ v = some T → Canon t ∧ ∀ e, Mem t e ↔ e ∈ T) :
    Canon (s.instantiate subst) ∧ ∀ e, Mem (s.instantiate subst) e ↔ e ∈ substSet {e | Mem s e} σ := by
  have hkeep : (∀ v, Mem s (.var v) → subst.lookup v = none) → ∀ e, Mem s e ↔ e ∈ substSet {e | Mem s e} σ := by
    intro hno e
    have hσ : ∀ v, Mem s (.var v) → σ v = none := by
      intro v hv
      have := hdom v
      rw [hno v hv] at this
      cases hc : σ v with
      | none => rfl
      | some T => rw [hc] at this; simp at this
    simp only [substSet, Set.mem_ofPred_eq]
    constructor
    · intro he
      cases e with
      | prim p => exact Or.inl ⟨p, rfl, he⟩
      | var v => exact Or.inr (Or.inl ⟨v, he, hσ v he, rfl⟩)
    · rintro (⟨p, rfl, h⟩ | ⟨v, h, -, rfl⟩ | ⟨v, T, h, h2, -⟩)
      · exact h
      · exact h
      · rw [hσ v h] at h2; simp at h2
  rw [EffType.instantiate]
  split
  · rename_i hc
    refine ⟨hs, hkeep ?_⟩
    simp only [Bool.or_eq_true, Bool.not_eq_true', List.any_eq_false] at hc
    intro v hv
    rcases hc with (hc | hc) | hc
    · exact absurd hv ((isEmpty_spec hs).1 hc _)
    · simp at hc; subst hc; rfl
    · have := hc v (mem_vars.2 hv)
      rwa [Option.isSome_iff_ne_none, not_not] at this
  · split
    · rename_i hc v hsingle
      have hl : s.toList = [.var v] := by
        rw [asSingle_toList hs] at hsingle
        split at hsingle
        · rename_i e he; rw [he]; simp at hsingle; rw [hsingle]
        · simp at hsingle
      have hm : ∀ e, Mem s e ↔ e = .var v := by intro e; rw [← toList_mem, hl]; simp
      cases ht : subst.lookup v with
      | none =>
        refine ⟨hs, hkeep ?_⟩
        intro u hu
        have := (hm _).1 hu
        cases this; exact ht
      | some t =>
        have hd := hdom v
        rw [ht] at hd
        cases hσ : σ v with
        | none => rw [hσ] at hd; simp at hd
        | some T =>
          obtain ⟨h1, h2⟩ := hval v t T ht hσ
          refine ⟨h1, fun e => ?_⟩
          simp only [Option.getD_some, h2, substSet, Set.mem_ofPred_eq, hm]
          constructor
          · intro he; exact Or.inr (Or.inr ⟨v, T, rfl, hσ, he⟩)
          · rintro (⟨p, -, h⟩ | ⟨u, h, h3, -⟩ | ⟨u, T', h, h3, h4⟩)
            · cases h
            · cases h; rw [hσ] at h3; simp at h3
            · cases h; rw [hσ] at h3; cases h3; exact h4
    · have key : ∀ (vs : List Nat) (acc : EffType), Canon acc →
          Canon (vs.foldl (instStep subst) acc) ∧ ∀ e, Mem (vs.foldl (instStep subst) acc) e ↔ Mem acc e ∨ (∃ v ∈ vs, σ v = none ∧ e = .var v) ∨
            ∃ v T, v ∈ vs ∧ σ v = some T ∧ e ∈ T := by
        intro vs
        induction vs with
        | nil => intro acc h; simp [h]
        | cons v vs ih =>
          intro acc h
          have hd := hdom v
          cases ht : subst.lookup v with
          | none =>
            rw [ht] at hd
            have hσ : σ v = none := by
              cases hc : σ v with
              | none => rfl
              | some T => rw [hc] at hd; simp at hd
            rw [List.foldl_cons, show instStep subst acc v = acc.insert (.var v) by simp [instStep, ht]]
            obtain ⟨a1, a2⟩ := insert_spec h (.var v)
            obtain ⟨b1, b2⟩ := ih _ a1
            refine ⟨b1, fun e => ?_⟩
            rw [b2, a2]
            constructor
            · rintro ((h | rfl) | ⟨u, h, h'⟩ | ⟨u, T, h, h'⟩)
              · exact Or.inl h
              · exact Or.inr (Or.inl ⟨v, by simp, hσ, rfl⟩)
              · exact Or.inr (Or.inl ⟨u, by simp [h], h'⟩)
              · exact Or.inr (Or.inr ⟨u, T, by simp [h], h'⟩)
            · rintro (h | ⟨u, h, h1, h2⟩ | ⟨u, T, h, h1, h2⟩)
              · exact Or.inl (Or.inl h)
              · rcases List.mem_cons.1 h with rfl | h
                · exact Or.inl (Or.inr h2)
                · exact Or.inr (Or.inl ⟨u, h, h1, h2⟩)
              · rcases List.mem_cons.1 h with rfl | h
                · rw [hσ] at h1; simp at h1
                · exact Or.inr (Or.inr ⟨u, T, h, h1, h2⟩)
          | some t =>
            rw [ht] at hd
            cases hσ : σ v with
            | none => rw [hσ] at hd; simp at hd
            | some T =>
              obtain ⟨c1, c2⟩ := hval v t T ht hσ
              rw [List.foldl_cons, show instStep subst acc v = acc.extend t by simp [instStep, ht]]
              obtain ⟨a1, a2⟩ := extend_spec h c1
              obtain ⟨b1, b2⟩ := ih _ a1
              refine ⟨b1, fun e => ?_⟩
              rw [b2, a2, c2]
              constructor
              · rintro ((h | h) | ⟨u, h, h'⟩ | ⟨u, T, h, h'⟩)
                · exact Or.inl h
                · exact Or.inr (Or.inr ⟨v, T, by simp, hσ, h⟩)
                · exact Or.inr (Or.inl ⟨u, by simp [h], h'⟩)
                · exact Or.inr (Or.inr ⟨u, T, by simp [h], h'⟩)
              · rintro (h | ⟨u, h, h1, h2⟩ | ⟨u, T', h, h1, h2⟩)
                · exact Or.inl (Or.inl h)
                · rcases List.mem_cons.1 h with rfl | h
                  · rw [hσ] at h1; simp at h1
                  · exact Or.inr (Or.inl ⟨u, h, h1, h2⟩)
                · rcases List.mem_cons.1 h with rfl | h
                  · rw [hσ] at h1; cases h1; exact Or.inl (Or.inr h2)
                  · exact Or.inr (Or.inr ⟨u, T', h, h1, h2⟩)
      have hacc : Canon (EffType.inline s.primitives 0#64) := canon_prims hs
      obtain ⟨k1, k2⟩ := key s.vars _ hacc
      refine ⟨k1, fun e => ?_⟩
      rw [k2]
      simp only [substSet, Set.mem_ofPred_eq, mem_vars]
      have hbase : Mem (EffType.inline s.primitives 0#64) e ↔ ∃ p, e = .prim p ∧ Mem s (.prim p) := by
        cases e with
        | prim p => rw [mem_prim]; simp [mem_prim, EffType.primitives]
        | var v => simp [Mem]
      rw [hbase]

theorem built_spec {s : EffType} {S : Set Eff} (h : Built s S) : Canon s ∧ ∀ e, Mem s e ↔ e ∈ S := by
  induction h with
  | empty => exact ⟨canon_empty, fun e => by simp [mem_empty]⟩
  | single e =>
    obtain ⟨h1, h2⟩ := insert_spec canon_empty e
    exact ⟨h1, fun x => by rw [EffType.single, h2]; simp [mem_empty]⟩
  | singlePrimitive p => exact singlePrimitive_spec p
  | singleVariable v => exact singleVariable_spec v
  | multiple es => exact fromIter_spec es
  | multiplePrimitive ps => exact multiplePrimitive_spec ps
  | multipleVariable vs =>
    obtain ⟨h1, h2⟩ := fromIter_spec (vs.map .var)
    exact ⟨h1, fun x => by rw [EffType.multipleVariable, h2]; simp [eq_comm]⟩
  | insert _ e ih =>
    obtain ⟨h1, h2⟩ := insert_spec ih.1 e
    exact ⟨h1, fun x => by rw [h2, ih.2]; rfl⟩
  | union _ _ ih1 ih2 =>
    obtain ⟨h1, h2⟩ := extend_spec ih1.1 ih2.1
    exact ⟨h1, fun x => by rw [h2, ih1.2, ih2.2]; rfl⟩
  | @instantiate s S _ subst σ hdom _ ih1 ih2 =>
    obtain ⟨h1, h2⟩ := instantiate_spec ih1.1 subst σ hdom ih2
    refine ⟨h1, fun x => ?_⟩
    rw [h2, show {e | Mem s e} = S from Set.ext ih1.2]

/-- Membership agrees with the denoted set. -/
theorem C21_membership {s : EffType} {S : Set Eff} (h : Built s S) (e : Eff) : s.contains e = true ↔ e ∈ S := by
  rw [contains_iff (built_spec h).1, (built_spec h).2]

/-- Two values are equal exactly when they denote the same set, however they were built (equality and hash are
structural in the code, so equal values also have equal hashes). -/
theorem C21_canonical {s t : EffType} {S T : Set Eff} (hs : Built s S) (ht : Built t T) : s = t ↔ S = T := by
  obtain ⟨c1, m1⟩ := built_spec hs
  obtain ⟨c2, m2⟩ := built_spec ht
  constructor
  · rintro rfl; ext e; rw [← m1, m2]
  · rintro rfl; exact canon_ext c1 c2 (fun e => by rw [m1, m2])

/-- Union is commutative, associative, idempotent and has the empty set as unit, as equations between values. -/
theorem C21_union_laws {s t u : EffType} {S T U : Set Eff} (hs : Built s S) (ht : Built t T) (hu : Built u U) :
    s.extend t = t.extend s ∧ (s.extend t).extend u = s.extend (t.extend u) ∧ s.extend s = s ∧
      s.extend EffType.empty = s ∧ EffType.empty.extend s = s := by
  refine ⟨?_, ?_, ?_, ?_, ?_⟩
  · exact (C21_canonical (hs.union ht) (ht.union hs)).2 (Set.union_comm _ _)
  · exact (C21_canonical ((hs.union ht).union hu) (hs.union (ht.union hu))).2 (Set.union_assoc _ _ _)
  · exact (C21_canonical (hs.union hs) hs).2 (Set.union_self _)
  · exact (C21_canonical (hs.union .empty) hs).2 (Set.union_empty _)
  · exact (C21_canonical (Built.union .empty hs) hs).2 (Set.empty_union _)

/-- The tests on the whole set agree with the denoted set. -/
theorem C21_queries {s : EffType} {S : Set Eff} (h : Built s S) :
    (s.isEmpty = true ↔ S = ∅) ∧
    (s.hasVariables = true ↔ ∃ v, .var v ∈ S) ∧
    (s.isOnlyVars = true ↔ ∀ p, .prim p ∉ S) ∧
    (∀ e, s.asSingle = some e ↔ S = {e}) ∧
    (∀ v, s.toSingleVariable = some v ↔ S = {.var v}) := by
  obtain ⟨hc, hm⟩ := built_spec h
  have hp0 : s.primitives = 0#16 ↔ ∀ p, .prim p ∉ S := by
    rw [← primList_nil (canon_prims hc), List.eq_nil_iff_forall_not_mem]
    exact forall_congr' fun p => by rw [mem_primList, ← mem_prim, hm]
  have hnd : s.toList.Nodup :=
    (List.Nodup.of_map rank ((toList_sorted hc).imp (fun h => Nat.ne_of_lt h)))
  have hone : ∀ e, s.toList = [e] ↔ S = {e} := by
    intro e
    constructor
    · intro hl; ext x; rw [← hm, ← toList_mem, hl]; simp
    · rintro rfl
      have hmem : ∀ x, x ∈ s.toList ↔ x = e := fun x => by rw [toList_mem, hm]; simp
      cases hl : s.toList with
      | nil => have := (hmem e).2 rfl; rw [hl] at this; simp at this
      | cons a l =>
        rw [hl] at hmem hnd
        have ha := (hmem a).1 (by simp)
        subst ha
        cases l with
        | nil => rfl
        | cons b l =>
          have hb := (hmem b).1 (by simp)
          subst hb; simp at hnd
  refine ⟨?_, ?_, ?_, ?_, ?_⟩
  · rw [isEmpty_spec hc, Set.eq_empty_iff_forall_notMem]
    exact forall_congr' fun e => by rw [hm]
  · rw [hasVariables, variablesLen_eq, bne_iff_ne, ne_eq, List.length_eq_zero_iff, List.eq_nil_iff_forall_not_mem]
    push Not
    exact exists_congr fun v => by rw [mem_vars, hm]
  · rw [isOnlyVars, beq_iff_eq, hp0]
  · intro e
    rw [← hone, asSingle_toList hc]
    constructor
    · intro h
      split at h
      · rename_i x hx; simp at h; rw [hx, h]
      · simp at h
    · intro h; rw [h]
  · intro v
    rw [← hone, toSingleVariable, toList, variablesLen_eq]
    by_cases hp : s.primitives = 0#16
    · rw [(primList_nil (canon_prims hc)).2 hp]
      simp only [hp, bne_self_eq_false, Bool.false_eq_true, if_false, List.map_nil, List.nil_append]
      match s.vars with
      | [] => simp
      | [a] => simp
      | a :: b :: l => simp
    · have hne : primList s.primitives ≠ [] := fun h => hp ((primList_nil (canon_prims hc)).1 h)
      simp only [bne_iff_ne, ne_eq, hp, not_false_eq_true, if_true, reduceCtorEq, false_iff]
      match hl : primList s.primitives with
      | [] => exact absurd hl hne
      | a :: l => simp

/-- The subset test answers `true` exactly for variable-free sets that are included; in particular a `true` answer is
always right, and for variable-free left sets the test is exact. -/
theorem C21_subset {s t : EffType} {S T : Set Eff} (hs : Built s S) (ht : Built t T) :
    s.isSubsetOf t = true ↔ (∀ v, .var v ∉ S) ∧ S ⊆ T := by
  have hv := (C21_queries hs).2.1
  obtain ⟨hc, hm⟩ := built_spec hs
  rw [isSubsetOf]
  by_cases hh : s.hasVariables = true
  · rw [if_pos hh]
    obtain ⟨v, hv⟩ := hv.1 hh
    simp only [Bool.false_eq_true, false_iff, not_and]
    intro h; exact absurd hv (h v)
  · rw [if_neg hh]
    have hno : ∀ v, .var v ∉ S := fun v hvS => hh (hv.2 ⟨v, hvS⟩)
    simp only [hno, not_false_eq_true, implies_true, true_and, List.all_eq_true]
    constructor
    · intro h e he
      cases e with
      | prim p => exact (C21_membership ht _).1 (h p (mem_primList.2 (mem_prim.1 ((hm _).2 he))))
      | var v => exact absurd he (hno v)
    · intro h p hp
      exact (C21_membership ht _).2 (h ((hm _).1 (mem_prim.2 (mem_primList.1 hp))))

/-- Iteration yields every member exactly once — primitive effects first, then the variables by ascending name — and
then reports the end forever. -/
theorem C21_iteration {s : EffType} {S : Set Eff} (h : Built s S) :
    ∃ l : List Eff, (∀ e, e ∈ l ↔ e ∈ S) ∧ l.Nodup ∧ (l.map rank).Pairwise (· < ·) ∧
      ∀ n, takeNext n s.iter = (List.range n).map (fun i => l[i]?) := by
  obtain ⟨hc, hm⟩ := built_spec h
  refine ⟨s.toList, fun e => by rw [toList_mem, hm], ?_, toList_sorted hc, fun n => ?_⟩
  · exact List.Nodup.of_map rank ((toList_sorted hc).imp (fun h => Nat.ne_of_lt h))
  · rw [takeNext_spec, iter_rest]

theorem cmpList_refl (l : List Eff) : cmpList l l = .eq := by
  induction l with
  | nil => rfl
  | cons a l ih => simp [cmpList, effCmp_eq, ih]

theorem cmpList_eq {l r : List Eff} : cmpList l r = .eq ↔ l = r := by
  constructor
  · intro h
    induction l generalizing r with
    | nil => cases r with
      | nil => rfl
      | cons b r => simp [cmpList] at h
    | cons a l ih => cases r with
      | nil => simp [cmpList] at h
      | cons b r =>
        rw [cmpList, effCmp_eq] at h
        rcases hc : compare (rank a) (rank b) with _ | _ | _ <;> rw [hc] at h <;> simp at h
        rw [Nat.compare_eq_eq] at hc
        rw [rank_inj hc, ih h]
  · rintro rfl; exact cmpList_refl l

theorem cmpList_swap (l r : List Eff) : cmpList l r = (cmpList r l).swap := by
  induction l generalizing r with
  | nil => cases r <;> rfl
  | cons a l ih => cases r with
    | nil => rfl
    | cons b r =>
      rw [cmpList, cmpList, effCmp_eq, effCmp_eq, ← Nat.compare_swap (rank b) (rank a)]
      rcases compare (rank b) (rank a) with _ | _ | _ <;> simp [ih]

theorem cmpList_trans {l r t : List Eff} (h1 : cmpList l r = .lt) (h2 : cmpList r t = .lt) : cmpList l t = .lt := by
  induction l generalizing r t with
  | nil => cases t with
    | nil => cases r <;> simp [cmpList] at h1 h2
    | cons c t => rfl
  | cons a l ih => cases r with
    | nil => simp [cmpList] at h1
    | cons b r => cases t with
      | nil => simp [cmpList] at h2
      | cons c t =>
        rw [cmpList, effCmp_eq] at h1 h2 ⊢
        rcases e1 : compare (rank a) (rank b) with _ | _ | _ <;> rw [e1] at h1 <;> simp at h1 <;>
          rcases e2 : compare (rank b) (rank c) with _ | _ | _ <;> rw [e2] at h2 <;> simp at h2
        · rw [Nat.compare_eq_lt] at e1 e2; rw [Nat.compare_eq_lt.2 (by omega)]
        · rw [Nat.compare_eq_lt] at e1; rw [Nat.compare_eq_eq] at e2; rw [Nat.compare_eq_lt.2 (by omega)]
        · rw [Nat.compare_eq_eq] at e1; rw [Nat.compare_eq_lt] at e2; rw [Nat.compare_eq_lt.2 (by omega)]
        · rw [Nat.compare_eq_eq] at e1 e2; rw [Nat.compare_eq_eq.2 (by omega)]; exact ih h1 h2

/-- The order used to sort effect sets is a strict total order compatible with equality. -/
theorem C21_total_order {s t u : EffType} {S T U : Set Eff} (hs : Built s S) (ht : Built t T) (_hu : Built u U) :
    (s.cmp t = .eq ↔ S = T) ∧ s.cmp t = (t.cmp s).swap ∧ (s.cmp t = .lt → t.cmp u = .lt → s.cmp u = .lt) := by
  refine ⟨?_, cmpList_swap _ _, cmpList_trans⟩
  rw [← C21_canonical hs ht, EffType.cmp, cmpList_eq]
  exact ⟨toList_inj (built_spec hs).1 (built_spec ht).1, fun h => by rw [h]⟩

/-- Three ways to build {write, e3, e70}, one of them by instantiating e1 in {write, e1}; all are equal values. -/
example :
    (fromIter [.var 70, .prim .write, .var 3]) =
      ((EffType.single (.var 3)).insert (.var 70)).extend (EffType.singlePrimitive .write) ∧
    ((fromIter [.prim .write, .var 1]).instantiate [(1, fromIter [.var 70, .var 3, .var 70])]) =
      fromIter [.var 70, .prim .write, .var 3] ∧
    Built (fromIter [.var 70, .prim .write, .var 3]) {e | e ∈ [.var 70, .prim .write, .var 3]} := by
  refine ⟨?_, ?_, Built.multiple _⟩
  · refine (C21_canonical (.multiple _) (((Built.single _).insert _).union (.singlePrimitive _))).2 ?_
    ext e; simp; tauto
  · refine (C21_canonical (Built.instantiate (.multiple _) _
      (fun v => if v = 1 then some {e | e ∈ [Eff.var 70, .var 3, .var 70]} else none) ?_ ?_) (.multiple _)).2 ?_
    · intro v; by_cases hv : v = 1 <;> simp [List.lookup, hv, beq_eq_false_iff_ne.2]
    · intro v t T h1 h2
      by_cases hv : v = 1
      · subst hv; simp [List.lookup] at h1 h2; subst h1; subst h2; simpa using Built.multiple [Eff.var 70, .var 3, .var 70]
      · simp [hv] at h2
    · ext e
      simp only [substSet, Set.mem_ofPred_eq]
      constructor
      · rintro (⟨p, rfl, h⟩ | ⟨v, h, h2, rfl⟩ | ⟨v, T, h, h2, h3⟩)
        · simp at h; simp [h]
        · simp at h; subst h; simp at h2
        · simp at h; subst h; simp at h2; subst h2; simp at h3; simp; tauto
      · intro h
        simp at h
        rcases h with rfl | rfl | rfl
        · exact Or.inr (Or.inr ⟨1, _, by simp, by simp; rfl, by simp⟩)
        · exact Or.inl ⟨_, rfl, by simp⟩
        · exact Or.inr (Or.inr ⟨1, _, by simp, by simp; rfl, by simp⟩)

end Ferlium.Effects
