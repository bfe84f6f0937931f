import Verif.Model.Effects
import Verif.Proofs.BitSet

/-! Lemmas about the effect set model. -/
namespace Ferlium.Effects

open Ferlium.BitSet (W trailingZeros countOnes ones mem_ones ones_sorted trailingZeros_spec sorted_ext word_ext
  countOnes_eq word_ne_zero ones_zero)

/-! ### Words -/

theorem trailingZeros_zero : trailingZeros 0#64 = 64 := by decide +kernel

theorem trailingZeros_lt {w : W} (h : w ≠ 0#64) : trailingZeros w < 64 := by
  by_contra hc
  have := (trailingZeros_spec h).1
  rw [BitVec.getLsbD_of_ge _ _ (by omega)] at this
  simp at this

theorem getLsbD_after {w : W} {t : Nat} (ht : t < 64) (j : Nat) :
    (w &&& (~~~1#64 <<< t)).getLsbD j = (w.getLsbD j && decide (t < j)) := by
  rw [BitVec.getLsbD_and, BitVec.getLsbD_shiftLeft, BitVec.getLsbD_not]
  by_cases hj : j < 64
  · by_cases h1 : j < t
    · simp [h1, show ¬ t < j by omega]
    · by_cases h2 : j = t
      · subst h2; simp
      · have : ¬ (j - t = 0) := by omega
        simp [h1, hj, show t < j by omega, BitVec.getLsbD_one, this, show j - t < 64 by omega]
  · rw [BitVec.getLsbD_of_ge w j (by omega)]; simp

theorem ones_step {w : W} (h : w ≠ 0#64) :
    ones w = trailingZeros w :: ones (w &&& (~~~1#64 <<< trailingZeros w)) := by
  obtain ⟨h1, h2⟩ := trailingZeros_spec h
  have ht := trailingZeros_lt h
  refine sorted_ext (ones_sorted w) ?_ ?_
  · refine List.pairwise_cons.2 ⟨fun j hj => ?_, ones_sorted _⟩
    rw [mem_ones, getLsbD_after ht] at hj
    simp at hj; exact hj.2
  · intro i
    rw [List.mem_cons, mem_ones, mem_ones, getLsbD_after ht]
    rcases Nat.lt_trichotomy (trailingZeros w) i with hlt | heq | hgt
    · simp [hlt]; omega
    · simp [← heq, h1]
    · rw [h2 i hgt]; simp; omega

theorem inlineNext_zero : inlineNext 0#64 = (none, 0#64) := by
  simp [inlineNext, trailingZeros_zero]

theorem inlineNext_ne {w : W} (h : w ≠ 0#64) :
    inlineNext w = (some (trailingZeros w), w &&& (~~~1#64 <<< trailingZeros w)) := by
  have := trailingZeros_lt h
  simp only [inlineNext]
  rw [if_neg (by omega)]

theorem inlineVars_go (n : Nat) (w : W) : inlineVars.go n w = (ones w).take n := by
  induction n generalizing w with
  | zero => simp [inlineVars.go]
  | succ n ih =>
    by_cases h : w = 0#64
    · subst h; simp [inlineVars.go, inlineNext_zero, ones_zero]
    · rw [ones_step h]
      simp [inlineVars.go, inlineNext_ne h, ih]

theorem inlineVars_eq (w : W) : inlineVars w = ones w := by
  rw [inlineVars, inlineVars_go, List.take_of_length_le]
  exact (List.length_filter_le _ _).trans (by simp)

theorem ones_eq_nil {w : W} : ones w = [] ↔ w = 0#64 := by
  constructor
  · intro h
    by_contra hc
    rw [ones_step hc] at h; simp at h
  · rintro rfl; exact ones_zero

theorem and_shift_ne (w : W) (v : Nat) : ((w &&& (1#64 <<< v)) != 0#64) = w.getLsbD v := by
  have h : (1#64 <<< v) = BitVec.twoPow 64 v := rfl
  rw [h, BitVec.and_twoPow]
  by_cases hb : w.getLsbD v = true
  · have hv : v < 64 := by by_contra hc; rw [BitVec.getLsbD_of_ge _ _ (by omega)] at hb; simp at hb
    rw [if_pos hb, hb]
    simp only [bne_iff_ne, ne_eq]
    intro hc
    have : (BitVec.twoPow 64 v).getLsbD v = (0#64).getLsbD v := by rw [hc]
    simp [BitVec.getLsbD_twoPow, hv] at this
  · rw [if_neg hb]; simp at hb; simp [hb]

theorem or_shift_get (w : W) {v : Nat} (hv : v < 64) (i : Nat) :
    (w ||| (1#64 <<< v)).getLsbD i = (w.getLsbD i || decide (i = v)) := by
  have h : (1#64 <<< v) = BitVec.twoPow 64 v := rfl
  rw [h, BitVec.getLsbD_or, BitVec.getLsbD_twoPow]
  by_cases hi : i = v
  · subst hi; simp [hv]
  · simp [hi, Ne.symm hi]

/-! ### Primitive bits -/

theorem primBit_eq (p : Prim) : primBit p = BitVec.twoPow 16 (EffType.primRank p) := by cases p <;> rfl

theorem primContains_eq (s : PBits) (p : Prim) : primContains s p = s.getLsbD (EffType.primRank p) := by
  have hr : EffType.primRank p < 16 := by cases p <;> decide
  rw [primContains, primBit_eq, BitVec.and_twoPow]
  by_cases hb : s.getLsbD (EffType.primRank p) = true
  · rw [if_pos hb, hb]
    simp only [bne_iff_ne, ne_eq]
    intro hc
    have : (BitVec.twoPow 16 (EffType.primRank p)).getLsbD (EffType.primRank p) = (0#16).getLsbD (EffType.primRank p) := by rw [hc]
    simp [BitVec.getLsbD_twoPow, hr] at this
  · rw [if_neg hb]; simp at hb; simp [hb]

theorem primRank_inj {p q : Prim} (h : EffType.primRank p = EffType.primRank q) : p = q := by
  cases p <;> cases q <;> first | rfl | simp [EffType.primRank] at h

theorem primContains_insert (s : PBits) (p q : Prim) :
    primContains (primInsert s p) q = (primContains s q || decide (q = p)) := by
  rw [primContains_eq, primContains_eq, primInsert, primBit_eq, BitVec.getLsbD_or, BitVec.getLsbD_twoPow]
  by_cases h : q = p
  · subst h; cases q <;> simp [EffType.primRank]
  · have : EffType.primRank p ≠ EffType.primRank q := fun hc => h (primRank_inj hc).symm
    simp [h, this]

theorem primContains_or (s t : PBits) (q : Prim) :
    primContains (s ||| t) q = (primContains s q || primContains t q) := by
  rw [primContains_eq, primContains_eq, primContains_eq, BitVec.getLsbD_or]

/-- Only the three assigned bits are ever set. -/
def PCanon (s : PBits) : Prop := ∀ i, 3 ≤ i → s.getLsbD i = false

theorem pcanon_zero : PCanon 0#16 := by intro i _; simp

theorem pcanon_insert {s : PBits} (h : PCanon s) (p : Prim) : PCanon (primInsert s p) := by
  intro i hi
  rw [primInsert, primBit_eq, BitVec.getLsbD_or, BitVec.getLsbD_twoPow, h i hi]
  have : EffType.primRank p ≠ i := by cases p <;> simp [EffType.primRank] <;> omega
  simp [this]

theorem pcanon_or {s t : PBits} (h : PCanon s) (h' : PCanon t) : PCanon (s ||| t) := by
  intro i hi; rw [BitVec.getLsbD_or, h i hi, h' i hi]; rfl

theorem pcanon_ext {s t : PBits} (hs : PCanon s) (ht : PCanon t) (h : ∀ p, primContains s p = primContains t p) : s = t := by
  apply BitVec.eq_of_getLsbD_eq
  intro i hi
  have h0 := h .read; have h1 := h .write; have h2 := h .fallible
  simp only [primContains_eq, EffType.primRank] at h0 h1 h2
  match i with
  | 0 => exact h0
  | 1 => exact h1
  | 2 => exact h2
  | i + 3 => rw [hs _ (by omega), ht _ (by omega)]

theorem primContains_zero (p : Prim) : primContains 0#16 p = false := by rw [primContains_eq]; simp

theorem primList_eq (s : PBits) : primList s = allPrims.filter (primContains s) := by
  cases h0 : primContains s .read <;> cases h1 : primContains s .write <;> cases h2 : primContains s .fallible <;>
    simp [primList, primList.go, primNext, primNextLoop, allPrims, h0, h1, h2]

theorem mem_primList {s : PBits} {p : Prim} : p ∈ primList s ↔ primContains s p = true := by
  rw [primList_eq, List.mem_filter]
  cases p <;> simp [allPrims]

theorem primLen_eq {s : PBits} (hs : PCanon s) : primLen s = (primList s).length := by
  rw [primList_eq, primLen, List.countP_eq_length_filter]
  have h : List.range 16 = [0, 1, 2] ++ (List.range 13).map (· + 3) := by decide
  have hz : ((List.range 13).map (· + 3)).filter (fun i => s.getLsbD i) = [] := by
    rw [List.filter_eq_nil_iff]
    intro i hi
    simp only [List.mem_map] at hi
    obtain ⟨k, -, rfl⟩ := hi
    simp [hs (k + 3) (by omega)]
  rw [h, List.filter_append, hz]
  · simp only [List.append_nil]
    have e0 := primContains_eq s .read
    have e1 := primContains_eq s .write
    have e2 := primContains_eq s .fallible
    simp only [EffType.primRank] at e0 e1 e2
    cases h0 : s.getLsbD 0 <;> cases h1 : s.getLsbD 1 <;> cases h2 : s.getLsbD 2 <;>
      simp only [List.filter_cons, List.filter_nil, allPrims, e0, e1, e2, h0, h1, h2] <;> rfl

theorem primList_nil {s : PBits} (hs : PCanon s) : primList s = [] ↔ s = 0#16 := by
  constructor
  · intro h
    refine pcanon_ext hs pcanon_zero (fun p => ?_)
    rw [primContains_zero]
    by_contra hc
    have : p ∈ primList s := mem_primList.2 (by simpa using hc)
    rw [h] at this; simp at this
  · rintro rfl; decide

/-! ### Sorted vectors of variables -/

theorem binarySearch_cons (a : Nat) (l : List Nat) (v : Nat) :
    binarySearch (a :: l) v = if a < v then ((binarySearch l v).1, (binarySearch l v).2 + 1) else (decide (a = v), 0) := by
  by_cases h : a < v
  · simp [binarySearch, h]
  · simp only [binarySearch, List.takeWhile_cons, h, decide_false, Bool.false_eq_true, if_false, List.length_nil]
    simp only [List.getElem?_cons_zero]
    congr 1

theorem binarySearch_mem {l : List Nat} (h : l.Pairwise (· < ·)) (v : Nat) : (binarySearch l v).1 = true ↔ v ∈ l := by
  induction l with
  | nil => simp [binarySearch]
  | cons a l ih =>
    have h' := List.pairwise_cons.1 h
    rw [binarySearch_cons]
    by_cases hv : a < v
    · rw [if_pos hv, ih h'.2]; simp; omega
    · rw [if_neg hv]
      simp only [decide_eq_true_eq, List.mem_cons]
      constructor
      · intro e; exact Or.inl e.symm
      · rintro (e | e)
        · exact e.symm
        · have := h'.1 v e; omega

theorem insertVariable_cons (a : Nat) (l : List Nat) (v : Nat) :
    insertVariable (a :: l) v = if a < v then a :: insertVariable l v else if a = v then a :: l else v :: a :: l := by
  simp only [insertVariable]
  rw [binarySearch_cons]
  by_cases h : a < v
  · simp only [h, if_true]
    rcases hb : binarySearch l v with ⟨b, i⟩
    cases b <;> simp
  · simp only [h, if_false]
    by_cases h2 : a = v <;> simp [h2]

theorem mem_insertVariable {l : List Nat} {v i : Nat} (h : l.Pairwise (· < ·)) : i ∈ insertVariable l v ↔ i ∈ l ∨ i = v := by
  induction l with
  | nil => simp [insertVariable, binarySearch]
  | cons a l ih =>
    rw [insertVariable_cons]
    have h' := List.pairwise_cons.1 h
    split
    · rw [List.mem_cons, ih h'.2, List.mem_cons]; tauto
    · split
      · rename_i h2; subst h2; simp; tauto
      · simp; tauto

theorem insertVariable_sorted {l : List Nat} (h : l.Pairwise (· < ·)) (v : Nat) : (insertVariable l v).Pairwise (· < ·) := by
  induction l with
  | nil => simp [insertVariable, binarySearch]
  | cons a l ih =>
    rw [insertVariable_cons]
    have h' := List.pairwise_cons.1 h
    split
    · refine List.pairwise_cons.2 ⟨fun x hx => ?_, ih h'.2⟩
      rcases (mem_insertVariable h'.2).1 hx with hx | hx
      · exact h'.1 x hx
      · omega
    · split
      · exact h
      · refine List.pairwise_cons.2 ⟨fun x hx => ?_, h⟩
        rcases List.mem_cons.1 hx with hx | hx
        · omega
        · have := h'.1 x hx; omega

theorem foldl_insertVariable (vs : List Nat) : ∀ {l : List Nat}, l.Pairwise (· < ·) →
    (vs.foldl insertVariable l).Pairwise (· < ·) ∧ ∀ i, i ∈ vs.foldl insertVariable l ↔ i ∈ l ∨ i ∈ vs := by
  induction vs with
  | nil => intro l h; simp [h]
  | cons v vs ih =>
    intro l h
    obtain ⟨h1, h2⟩ := ih (insertVariable_sorted h v)
    refine ⟨h1, fun i => ?_⟩
    rw [List.foldl_cons, h2, mem_insertVariable h, List.mem_cons]; tauto

theorem mem_merge (l r : List Nat) (i : Nat) : i ∈ merge l r ↔ i ∈ l ∨ i ∈ r := by
  fun_induction merge l r with
  | case1 a l b r h ih => simp only [List.mem_cons, ih]; tauto
  | case2 a l b r h h' ih => simp only [List.mem_cons, ih]; tauto
  | case3 a l b r h h' ih =>
    have : a = b := by omega
    subst this
    simp only [List.mem_cons, ih]; tauto
  | case4 a l ih => simp only [List.mem_cons, ih]; tauto
  | case5 b r ih => simp only [List.mem_cons, ih]; tauto
  | case6 => simp

theorem merge_sorted (l r : List Nat) (hl : l.Pairwise (· < ·)) (hr : r.Pairwise (· < ·)) : (merge l r).Pairwise (· < ·) := by
  fun_induction merge l r with
  | case1 a l b r h ih =>
    have hl' := List.pairwise_cons.1 hl
    have hr' := List.pairwise_cons.1 hr
    refine List.pairwise_cons.2 ⟨fun x hx => ?_, ih hl'.2 hr⟩
    rcases (mem_merge _ _ _).1 hx with hx | hx
    · exact hl'.1 x hx
    · rcases List.mem_cons.1 hx with hx | hx
      · omega
      · have := hr'.1 x hx; omega
  | case2 a l b r h h' ih =>
    have hl' := List.pairwise_cons.1 hl
    have hr' := List.pairwise_cons.1 hr
    refine List.pairwise_cons.2 ⟨fun x hx => ?_, ih hl hr'.2⟩
    rcases (mem_merge _ _ _).1 hx with hx | hx
    · rcases List.mem_cons.1 hx with hx | hx
      · omega
      · have := hl'.1 x hx; omega
    · exact hr'.1 x hx
  | case3 a l b r h h' ih =>
    have hl' := List.pairwise_cons.1 hl
    have hr' := List.pairwise_cons.1 hr
    refine List.pairwise_cons.2 ⟨fun x hx => ?_, ih hl'.2 hr'.2⟩
    rcases (mem_merge _ _ _).1 hx with hx | hx
    · exact hl'.1 x hx
    · have := hr'.1 x hx; omega
  | case4 a l ih =>
    have hl' := List.pairwise_cons.1 hl
    refine List.pairwise_cons.2 ⟨fun x hx => ?_, ih hl'.2 hr⟩
    rcases (mem_merge _ _ _).1 hx with hx | hx
    · exact hl'.1 x hx
    · simp at hx
  | case5 b r ih =>
    have hr' := List.pairwise_cons.1 hr
    refine List.pairwise_cons.2 ⟨fun x hx => ?_, ih hl hr'.2⟩
    rcases (mem_merge _ _ _).1 hx with hx | hx
    · simp at hx
    · exact hr'.1 x hx
  | case6 => exact List.Pairwise.nil

theorem extendVariables_spec {l r : List Nat} (hl : l.Pairwise (· < ·)) (hr : r.Pairwise (· < ·)) :
    (extendVariables l r).Pairwise (· < ·) ∧ ∀ i, i ∈ extendVariables l r ↔ i ∈ l ∨ i ∈ r := by
  unfold extendVariables
  split
  · rename_i h; simp at h; subst h; simp [hl]
  · split
    · rename_i h; simp at h; subst h; simp [hr]
    · match r with
      | [v] => exact ⟨insertVariable_sorted hl v, fun i => by rw [mem_insertVariable hl]; simp⟩
      | [] => exact ⟨merge_sorted l [] hl hr, mem_merge l []⟩
      | a :: b :: r => exact ⟨merge_sorted l _ hl hr, mem_merge l _⟩

theorem mem_dedup (l : List Nat) (i : Nat) : i ∈ EffType.dedup l ↔ i ∈ l := by
  fun_induction EffType.dedup l with
  | case1 b l ih => rw [ih]; simp
  | case2 a b l h ih => rw [List.mem_cons, ih]; simp
  | case3 l h => rfl

theorem dedup_sorted (l : List Nat) (h : l.Pairwise (· ≤ ·)) : (EffType.dedup l).Pairwise (· < ·) := by
  fun_induction EffType.dedup l with
  | case1 b l ih => exact ih (List.pairwise_cons.1 h).2
  | case2 a b l hne ih =>
    have h' := List.pairwise_cons.1 h
    refine List.pairwise_cons.2 ⟨fun x hx => ?_, ih h'.2⟩
    rw [mem_dedup] at hx
    have hab := h'.1 b (by simp)
    rcases List.mem_cons.1 hx with hx | hx
    · omega
    · have := (List.pairwise_cons.1 h'.2).1 x hx; omega
  | case3 l hl =>
    match l, hl with
    | [], _ => exact List.Pairwise.nil
    | [a], _ => simp
    | a :: b :: l, hl => exact absurd rfl (hl a b l)

/-! ### Canonical form -/

namespace EffType

/-- The set denoted by a representation. -/
def Mem : EffType → Eff → Prop
  | .inline b _, .prim p => primContains b p = true
  | .heap b _, .prim p => primContains b p = true
  | .inline _ w, .var v => w.getLsbD v = true
  | .heap _ l, .var v => v ∈ l

/-- The representation invariant: only known primitive bits; the heap form is strictly sorted and is only used when a
variable does not fit the inline form. -/
def Canon : EffType → Prop
  | .inline b _ => PCanon b
  | .heap b l => PCanon b ∧ l.Pairwise (· < ·) ∧ ∃ v ∈ l, 64 ≤ v

theorem canon_prims {s : EffType} (h : Canon s) : PCanon s.primitives := by
  cases s with
  | inline b w => exact h
  | heap b l => exact h.1

theorem mem_prim {s : EffType} {p : Prim} : Mem s (.prim p) ↔ primContains s.primitives p = true := by
  cases s <;> rfl

theorem getLsbD_lt {w : W} {v : Nat} (h : w.getLsbD v = true) : v < 64 := by
  by_contra hc; rw [BitVec.getLsbD_of_ge _ _ (by omega)] at h; simp at h

theorem canon_ext {s t : EffType} (hs : Canon s) (ht : Canon t) (h : ∀ e, Mem s e ↔ Mem t e) : s = t := by
  have hp : s.primitives = t.primitives := by
    refine pcanon_ext (canon_prims hs) (canon_prims ht) (fun p => ?_)
    have := h (.prim p)
    rw [mem_prim, mem_prim] at this
    exact Bool.eq_iff_iff.2 this
  cases s with
  | inline b w =>
    cases t with
    | inline c u =>
      simp only [primitives] at hp; subst hp
      congr 1
      exact word_ext (fun i _ => Bool.eq_iff_iff.2 (h (.var i)))
    | heap c r =>
      obtain ⟨-, -, v, hv, h64⟩ := ht
      have := getLsbD_lt ((h (.var v)).2 hv)
      omega
  | heap b l =>
    cases t with
    | inline c u =>
      obtain ⟨-, -, v, hv, h64⟩ := hs
      have := getLsbD_lt ((h (.var v)).1 hv)
      omega
    | heap c r =>
      simp only [primitives] at hp; subst hp
      congr 1
      exact sorted_ext hs.2.1 ht.2.1 (fun i => h (.var i))

theorem contains_iff {s : EffType} (h : Canon s) (e : Eff) : s.contains e = true ↔ Mem s e := by
  cases e with
  | prim p => rw [mem_prim]; rfl
  | var v =>
    cases s with
    | inline b w =>
      simp only [contains, containsVariable, inlineVarBit, Mem]
      by_cases hv : v < 64
      · simp only [hv, if_true]; rw [and_shift_ne]
      · simp only [hv, if_false]; rw [BitVec.getLsbD_of_ge _ _ (by omega)]
    | heap b l => exact binarySearch_mem h.2.1 v

theorem mem_vars {s : EffType} {v : Nat} : v ∈ s.vars ↔ Mem s (.var v) := by
  cases s with
  | inline b w => rw [vars, inlineVars_eq, mem_ones]; rfl
  | heap b l => rfl

theorem vars_sorted {s : EffType} (h : Canon s) : s.vars.Pairwise (· < ·) := by
  cases s with
  | inline b w => rw [vars, inlineVars_eq]; exact ones_sorted w
  | heap b l => exact h.2.1

theorem variablesLen_eq (s : EffType) : s.variablesLen = s.vars.length := by
  cases s with
  | inline b w => rw [variablesLen, vars, inlineVars_eq, countOnes_eq]
  | heap b l => rfl

theorem canon_empty : Canon empty := pcanon_zero

theorem mem_empty (e : Eff) : ¬ Mem empty e := by
  cases e with
  | prim p => rw [mem_prim]; simp [empty, primitives, primContains_zero]
  | var v => simp [empty, Mem]

theorem insert_spec {s : EffType} (h : Canon s) (e : Eff) :
    Canon (s.insert e) ∧ ∀ x, Mem (s.insert e) x ↔ Mem s x ∨ x = e := by
  cases e with
  | prim p =>
    cases s with
    | inline b w =>
      refine ⟨pcanon_insert h p, fun x => ?_⟩
      cases x with
      | prim q => simp only [insert, insertPrimitive, Mem, primContains_insert]; simp
      | var v => simp [insert, insertPrimitive, Mem]
    | heap b l =>
      refine ⟨⟨pcanon_insert h.1 p, h.2⟩, fun x => ?_⟩
      cases x with
      | prim q => simp only [insert, insertPrimitive, Mem, primContains_insert]; simp
      | var v => simp [insert, insertPrimitive, Mem]
  | var v =>
    cases s with
    | inline b w =>
      by_cases hv : v < 64
      · simp only [insert, insertVar, inlineVarBit, hv, if_true]
        refine ⟨h, fun x => ?_⟩
        cases x with
        | prim q => simp [Mem]
        | var u => simp only [Mem, or_shift_get w hv]; simp
      · simp only [insert, insertVar, inlineVarBit, hv, if_false]
        have hs : (inlineVars w).Pairwise (· < ·) := by rw [inlineVars_eq]; exact ones_sorted w
        refine ⟨⟨h, insertVariable_sorted hs v, v, (mem_insertVariable hs).2 (Or.inr rfl), by omega⟩, fun x => ?_⟩
        cases x with
        | prim q => simp [Mem]
        | var u => simp only [Mem, mem_insertVariable hs]; rw [inlineVars_eq, mem_ones]; simp
    | heap b l =>
      obtain ⟨h1, h2, k, hk, h64⟩ := h
      refine ⟨⟨h1, insertVariable_sorted h2 v, k, (mem_insertVariable h2).2 (Or.inl hk), h64⟩, fun x => ?_⟩
      cases x with
      | prim q => simp [insert, insertVar, Mem]
      | var u => simp only [insert, insertVar, Mem, mem_insertVariable h2]; simp

theorem extend_spec {s t : EffType} (hs : Canon s) (ht : Canon t) :
    Canon (s.extend t) ∧ ∀ x, Mem (s.extend t) x ↔ Mem s x ∨ Mem t x := by
  cases s with
  | inline b w =>
    cases t with
    | inline c u =>
      refine ⟨pcanon_or hs ht, fun x => ?_⟩
      cases x with
      | prim q => simp only [extend, Mem, primContains_or]; simp
      | var v => simp only [extend, Mem, BitVec.getLsbD_or]; simp
    | heap c r =>
      obtain ⟨h1, h2, k, hk, h64⟩ := ht
      have hsorted : (inlineVars w).Pairwise (· < ·) := by rw [inlineVars_eq]; exact ones_sorted w
      obtain ⟨e1, e2⟩ := extendVariables_spec hsorted h2
      refine ⟨⟨pcanon_or hs h1, e1, k, (e2 k).2 (Or.inr hk), h64⟩, fun x => ?_⟩
      cases x with
      | prim q => simp only [extend, Mem, primContains_or]; simp
      | var v => simp only [extend, Mem, e2]; rw [inlineVars_eq, mem_ones]
  | heap b l =>
    obtain ⟨h1, h2, k, hk, h64⟩ := hs
    cases t with
    | inline c u =>
      obtain ⟨e1, e2⟩ := foldl_insertVariable (inlineVars u) h2
      refine ⟨⟨pcanon_or h1 ht, e1, k, (e2 k).2 (Or.inl hk), h64⟩, fun x => ?_⟩
      cases x with
      | prim q => simp only [extend, Mem, primContains_or]; simp
      | var v => simp only [extend, Mem, extendFromBits, e2]; rw [inlineVars_eq, mem_ones]
    | heap c r =>
      obtain ⟨e1, e2⟩ := extendVariables_spec h2 ht.2.1
      refine ⟨⟨pcanon_or h1 ht.1, e1, k, (e2 k).2 (Or.inl hk), h64⟩, fun x => ?_⟩
      cases x with
      | prim q => simp only [extend, Mem, primContains_or]; simp
      | var v => simp only [extend, Mem, e2]

theorem singlePrimitive_spec (p : Prim) : Canon (singlePrimitive p) ∧ ∀ x, Mem (singlePrimitive p) x ↔ x = .prim p := by
  refine ⟨pcanon_insert pcanon_zero p, fun x => ?_⟩
  cases x with
  | prim q => simp only [singlePrimitive, Mem, primContains_insert, primContains_zero]; simp
  | var v => simp [singlePrimitive, Mem]

theorem singleVariable_spec (v : Nat) : Canon (singleVariable v) ∧ ∀ x, Mem (singleVariable v) x ↔ x = .var v := by
  by_cases hv : v < 64
  · simp only [singleVariable, inlineVarBit, hv, if_true]
    refine ⟨pcanon_zero, fun x => ?_⟩
    cases x with
    | prim q => simp [Mem, primContains_zero]
    | var u =>
      have := or_shift_get 0#64 hv u
      simp only [BitVec.zero_or] at this
      simp only [Mem, this]; simp
  · simp only [singleVariable, inlineVarBit, hv, if_false]
    refine ⟨⟨pcanon_zero, by simp, v, by simp, by omega⟩, fun x => ?_⟩
    cases x with
    | prim q => simp [Mem, primContains_zero]
    | var u => simp [Mem]

theorem foldl_primInsert (ps : List Prim) : ∀ b, PCanon b → PCanon (ps.foldl primInsert b) ∧
    ∀ q, primContains (ps.foldl primInsert b) q = (primContains b q || decide (q ∈ ps)) := by
  induction ps with
  | nil => intro b h; simp [h]
  | cons p ps ih =>
    intro b h
    obtain ⟨h1, h2⟩ := ih _ (pcanon_insert h p)
    refine ⟨h1, fun q => ?_⟩
    rw [List.foldl_cons, h2, primContains_insert]
    simp [Bool.or_assoc]

theorem multiplePrimitive_spec (ps : List Prim) :
    Canon (multiplePrimitive ps) ∧ ∀ x, Mem (multiplePrimitive ps) x ↔ ∃ p ∈ ps, x = .prim p := by
  obtain ⟨h1, h2⟩ := foldl_primInsert ps _ pcanon_zero
  refine ⟨h1, fun x => ?_⟩
  cases x with
  | prim q => simp only [multiplePrimitive, Mem, h2, primContains_zero]; simp
  | var v => simp [multiplePrimitive, Mem]

/-- What the state of the `from_iter` loop denotes after a prefix. -/
structure FromInv (es : List Eff) (s : PBits × W × List Nat) : Prop where
  canon : PCanon s.1
  prims : ∀ p, primContains s.1 p = true ↔ .prim p ∈ es
  small : s.2.2 = [] → ∀ v, s.2.1.getLsbD v = true ↔ .var v ∈ es
  big : s.2.2 ≠ [] → (∀ v, v ∈ s.2.2 ↔ .var v ∈ es) ∧ ∃ v ∈ s.2.2, 64 ≤ v

theorem fromInv_step {es : List Eff} {s : PBits × W × List Nat} (h : FromInv es s) (e : Eff) :
    FromInv (es ++ [e]) (fromIterStep s e) := by
  obtain ⟨b, w, l⟩ := s
  obtain ⟨h1, h2, h3, h4⟩ := h
  simp only at h1 h2 h3 h4
  cases e with
  | prim p =>
    refine ⟨pcanon_insert h1 p, fun q => ?_, fun hl v => ?_, fun hl => ?_⟩
    · simp only [fromIterStep, primContains_insert]; simp [h2]
    · simp only [fromIterStep] at hl ⊢; simp [h3 hl]
    · simp only [fromIterStep] at hl ⊢; simpa using h4 hl
  | var v =>
    by_cases hv : v < 64
    · simp only [fromIterStep, inlineVarBit, hv, if_true]
      by_cases hl : l = []
      · subst hl
        simp only [List.isEmpty_nil, if_true]
        refine ⟨h1, fun q => by simp [h2], fun _ u => ?_, fun hc => absurd rfl hc⟩
        simp only [or_shift_get w hv]
        simp [h3 rfl]
      · have : l.isEmpty = false := by simpa using hl
        simp only [this]
        obtain ⟨e1, k, hk, h64⟩ := h4 hl
        refine ⟨h1, fun q => by simp [h2], fun hc => by simp at hc, fun _ => ⟨fun u => ?_, k, by simp [hk], h64⟩⟩
        simp [e1]
    · simp only [fromIterStep, inlineVarBit, hv, if_false]
      refine ⟨h1, fun q => by simp [h2], fun hc => by simp at hc, fun _ => ⟨fun u => ?_, v, by simp, by omega⟩⟩
      by_cases hl : l = []
      · subst hl
        simp only [List.isEmpty_nil, if_true, List.nil_append, List.mem_append]
        rw [inlineVars_eq, mem_ones, h3 rfl]; simp
      · have : l.isEmpty = false := by simpa using hl
        simp [this, (h4 hl).1]

theorem fromInv_foldl (es : List Eff) : ∀ (done : List Eff) s, FromInv done s → FromInv (done ++ es) (es.foldl fromIterStep s) := by
  induction es with
  | nil => intro d s h; simpa using h
  | cons e es ih => intro d s h; simpa using ih _ _ (fromInv_step h e)

theorem fromIter_spec (es : List Eff) : Canon (fromIter es) ∧ ∀ x, Mem (fromIter es) x ↔ x ∈ es := by
  have h := fromInv_foldl es [] (0#16, 0#64, [])
    ⟨pcanon_zero, fun p => by simp [primContains_zero], fun _ v => by simp, fun hc => absurd rfl hc⟩
  rw [fromIter]
  rcases hs : es.foldl fromIterStep (0#16, 0#64, []) with ⟨b, w, l⟩
  rw [hs] at h
  obtain ⟨h1, h2, h3, h4⟩ := h
  simp only [List.nil_append] at h1 h2 h3 h4 ⊢
  by_cases hl : l = []
  · subst hl
    simp only [List.isEmpty_nil, if_true]
    refine ⟨h1, fun x => ?_⟩
    cases x with
    | prim p => exact h2 p
    | var v => exact h3 rfl v
  · have he : l.isEmpty = false := by simpa using hl
    simp only [he, Bool.false_eq_true, if_false]
    obtain ⟨e1, k, hk, h64⟩ := h4 hl
    have hm : ∀ v, v ∈ dedup (l.mergeSort (· ≤ ·)) ↔ v ∈ l := by
      intro v; rw [mem_dedup]; exact List.mem_mergeSort
    refine ⟨⟨h1, dedup_sorted _ ?_, k, (hm k).2 hk, h64⟩, fun x => ?_⟩
    · have := List.pairwise_mergeSort (le := fun a b : Nat => decide (a ≤ b)) (by simp; omega) (by simp; omega) l
      simpa using this
    · cases x with
      | prim p => exact h2 p
      | var v => exact (hm v).trans (e1 v)

theorem isEmpty_spec {s : EffType} (h : Canon s) : s.isEmpty = true ↔ ∀ x, ¬ Mem s x := by
  simp only [isEmpty, Bool.and_eq_true, beq_iff_eq]
  rw [variablesLen_eq, List.length_eq_zero_iff, ← primList_nil (canon_prims h)]
  constructor
  · rintro ⟨h1, h2⟩ x hx
    cases x with
    | prim p => rw [mem_prim, ← mem_primList, h1] at hx; simp at hx
    | var v => rw [← mem_vars, h2] at hx; simp at hx
  · intro hx
    constructor
    · rw [List.eq_nil_iff_forall_not_mem]
      intro p hp; exact hx (.prim p) (mem_prim.2 (mem_primList.1 hp))
    · rw [List.eq_nil_iff_forall_not_mem]
      intro v hv; exact hx (.var v) (mem_vars.1 hv)

theorem toList_mem {s : EffType} (x : Eff) : x ∈ s.toList ↔ Mem s x := by
  simp only [toList, List.mem_append, List.mem_map]
  cases x with
  | prim p => simp [mem_prim, mem_primList]
  | var v => simp [mem_vars]

theorem asSingle_toList {s : EffType} (h : Canon s) : s.asSingle = match s.toList with | [e] => some e | _ => none := by
  rw [asSingle, primLen_eq (canon_prims h), variablesLen_eq, toList]
  match primList s.primitives, s.vars with
  | [], [] => rfl
  | [p], [] => rfl
  | [], [v] => rfl
  | [p], [v] => rfl
  | [p], v :: w :: l => rfl
  | [], v :: w :: l => rfl
  | p :: q :: l, [] => rfl
  | p :: q :: l, [v] => rfl
  | p :: q :: l, v :: w :: l' => rfl

/-! ### The order of effects -/

/-- Rank of an effect in the derived order. -/
def rank : Eff → Nat
  | .prim p => primRank p
  | .var v => v + 3

theorem rank_inj {a b : Eff} (h : rank a = rank b) : a = b := by
  cases a with
  | prim p =>
    cases b with
    | prim q => rw [primRank_inj h]
    | var v => cases p <;> simp [rank, primRank] at h
  | var v =>
    cases b with
    | prim q => cases q <;> simp [rank, primRank] at h
    | var u => simp [rank] at h; rw [h]

theorem effCmp_eq (a b : Eff) : effCmp a b = compare (rank a) (rank b) := by
  cases a with
  | prim p =>
    cases b with
    | prim q => rfl
    | var v => cases p <;> simp [effCmp, rank, primRank] <;> symm <;> rw [Nat.compare_eq_lt] <;> omega
  | var v =>
    cases b with
    | prim q => cases q <;> simp [effCmp, rank, primRank] <;> symm <;> rw [Nat.compare_eq_gt] <;> omega
    | var u =>
      simp only [effCmp, rank]
      rcases Nat.lt_trichotomy v u with h | h | h
      · rw [Nat.compare_eq_lt.2 h, Nat.compare_eq_lt.2 (by omega)]
      · subst h; simp
      · rw [Nat.compare_eq_gt.2 h, Nat.compare_eq_gt.2 (by omega)]

theorem primList_sorted (b : PBits) : ((primList b).map primRank).Pairwise (· < ·) := by
  rw [primList_eq, List.pairwise_map]
  exact List.Pairwise.filter _ (by simp [allPrims, primRank])

theorem toList_sorted {s : EffType} (h : Canon s) : (s.toList.map rank).Pairwise (· < ·) := by
  rw [toList, List.map_append, List.map_map, List.map_map, List.pairwise_append]
  refine ⟨primList_sorted _, ?_, ?_⟩
  · rw [List.pairwise_map]
    exact (vars_sorted h).imp (fun hab => by simp only [Function.comp_apply, rank]; omega)
  · intro a ha b hb
    rw [List.mem_map] at ha hb
    obtain ⟨p, -, rfl⟩ := ha
    obtain ⟨v, -, rfl⟩ := hb
    cases p <;> simp [rank, primRank]

theorem toList_inj {s t : EffType} (hs : Canon s) (ht : Canon t) (h : s.toList = t.toList) : s = t :=
  canon_ext hs ht (fun e => by rw [← toList_mem, ← toList_mem, h])

/-! ### Iteration -/

/-- Elements still to come. -/
def Iter.rest (it : Iter) : List Eff :=
  ((allPrims.drop it.index).filter (primContains it.bits)).map .prim ++
    (match it.vars with | .inline w => ones w | .heap l => l).map .var

theorem primNext_spec (b : PBits) (index : Nat) :
    (primNext b index).1 = ((allPrims.drop index).filter (primContains b)).head? ∧
    (allPrims.drop (primNext b index).2).filter (primContains b) = ((allPrims.drop index).filter (primContains b)).tail := by
  match index with
  | 0 | 1 | 2 =>
    cases h0 : primContains b .read <;> cases h1 : primContains b .write <;> cases h2 : primContains b .fallible <;>
      simp [primNext, primNextLoop, allPrims, h0, h1, h2]
  | n + 3 => simp [primNext, primNextLoop, allPrims]

theorem next_spec (it : Iter) : it.next.1 = it.rest.head? ∧ it.next.2.rest = it.rest.tail := by
  obtain ⟨h1, h2⟩ := primNext_spec it.bits it.index
  rw [Iter.next]
  rcases hp : primNext it.bits it.index with ⟨o, i⟩
  rw [hp] at h1 h2
  simp only at h1 h2
  cases o with
  | some p =>
    simp only [Iter.rest]
    cases hf : (allPrims.drop it.index).filter (primContains it.bits) with
    | nil => rw [hf] at h1; simp at h1
    | cons q qs => rw [hf] at h1 h2; simp at h1 h2; subst h1; simp [h2]
  | none =>
    have hf : (allPrims.drop it.index).filter (primContains it.bits) = [] := by
      rw [← List.head?_eq_none_iff]; exact h1.symm
    rw [hf] at h2
    simp only [List.tail_nil] at h2
    obtain ⟨b, idx, vs⟩ := it
    cases vs with
    | inline w =>
      by_cases hw : w = 0#64
      · subst hw
        simp only [VarsIter.next, inlineNext_zero, Iter.rest, h2, ones_zero] at hf ⊢
        simp [hf]
      · simp only [VarsIter.next, inlineNext_ne hw, Iter.rest, h2] at hf ⊢
        rw [hf, ones_step hw]; simp
    | heap l =>
      cases l with
      | nil => simp only [VarsIter.next, Iter.rest, h2] at hf ⊢; simp [hf]
      | cons v l => simp only [VarsIter.next, Iter.rest, h2] at hf ⊢; simp [hf]

theorem takeNext_spec (n : Nat) (it : Iter) : takeNext n it = (List.range n).map (fun i => it.rest[i]?) := by
  induction n generalizing it with
  | zero => simp [takeNext]
  | succ n ih =>
    obtain ⟨h1, h2⟩ := next_spec it
    rw [takeNext, ih, h1, h2, List.range_succ_eq_map, List.map_cons, List.map_map]
    congr 1
    · rw [List.head?_eq_getElem?]
    · apply List.map_congr_left
      intro i _
      simp

theorem iter_rest (s : EffType) : s.iter.rest = s.toList := by
  rw [toList, primList_eq]
  cases s with
  | inline b w => simp only [iter, Iter.rest, primitives, vars, inlineVars_eq]; rfl
  | heap b l => rfl

end EffType
end Ferlium.Effects
