import Verif.Model.Names
import Mathlib.Tactic

/-!
Property C40: variables of one displayed signature are never printed with the same name.
-/

namespace Ferlium.Names

/-- Read a text of digits back. -/
def value (zero : Nat) (l : List Char) : Nat := l.foldl (fun a c => 10 * a + (c.toNat - zero)) 0

/-- The ten characters from `zero` on are characters. -/
def Digits (zero : Nat) : Prop := ∀ d < 10, (zero + d).isValidChar

theorem digits_48 : Digits 48 := by intro d hd; left; omega
theorem digits_sub : Digits 0x2080 := by intro d hd; left; omega

theorem toNat_ofNat {n : Nat} (h : n.isValidChar) : (Char.ofNat n).toNat = n := by
  rw [Char.ofNat, dif_pos h]
  rfl

theorem foldl_value (zero : Nat) : ∀ (l : List Char) (a : Nat),
    l.foldl (fun a c => 10 * a + (c.toNat - zero)) a = a * 10 ^ l.length + value zero l := by
  intro l
  induction l with
  | nil => intro a; simp [value]
  | cons c l ih =>
    intro a
    simp only [value, List.foldl_cons, List.length_cons]
    rw [ih, ih (10 * 0 + (c.toNat - zero))]
    ring

theorem digitsLoop_value {zero : Nat} (hz : Digits zero) : ∀ (n : Nat) (r : List Char),
    value zero (digitsLoop zero n r) = n * 10 ^ r.length + value zero r := by
  intro n
  induction n using Nat.strong_induction_on with
  | _ n ih =>
    intro r
    unfold digitsLoop
    split_ifs with h
    · subst h; simp
    · rw [ih (n / 10) (by omega)]
      have hv : value zero (Char.ofNat (zero + n % 10) :: r) =
          (n % 10) * 10 ^ r.length + value zero r := by
        rw [value, List.foldl_cons, foldl_value, toNat_ofNat (hz _ (by omega))]
        simp
      rw [hv, List.length_cons, pow_succ]
      have := Nat.div_add_mod n 10
      calc n / 10 * (10 ^ r.length * 10) + (n % 10 * 10 ^ r.length + value zero r)
          = (10 * (n / 10) + n % 10) * 10 ^ r.length + value zero r := by ring
        _ = n * 10 ^ r.length + value zero r := by rw [this]

theorem decimal_value (n : Nat) : value 48 (decimal n) = n := by
  unfold decimal
  split_ifs with h
  · subst h; rfl
  · rw [digitsLoop_value digits_48]; simp [value]

theorem decimal_injective {m n : Nat} (h : decimal m = decimal n) : m = n := by
  rw [← decimal_value m, h, decimal_value]

theorem decimal_ne_nil (n : Nat) : decimal n ≠ [] := by
  intro h
  have := decimal_value n
  rw [h] at this
  have h0 : n = 0 := by simpa [value] using this.symm
  subst h0
  simp [decimal] at h

theorem indexToString_injective {first last : Nat} {f : Char}
    (hv : ∀ u, first ≤ u → u ≤ last → u.isValidChar) {m n : Nat}
    (h : indexToString m first last [f] = indexToString n first last [f]) : m = n := by
  unfold indexToString at h
  simp only [] at h
  by_cases h1 : first + m ≤ last <;> by_cases h2 : first + n ≤ last
  · have v1 := hv _ (Nat.le_add_right first m) h1
    have v2 := hv _ (Nat.le_add_right first n) h2
    rw [if_pos h1, if_pos h2, if_pos v1, if_pos v2] at h
    have e := congrArg Char.toNat (List.cons.inj h).1
    rw [toNat_ofNat v1, toNat_ofNat v2] at e
    omega
  · rw [if_pos h1, if_neg h2] at h
    exact absurd (List.cons.inj h).2.symm (by simpa using decimal_ne_nil _)
  · rw [if_neg h1, if_pos h2] at h
    exact absurd (List.cons.inj h).2 (by simpa using decimal_ne_nil _)
  · rw [if_neg h1, if_neg h2] at h
    have := decimal_injective (List.append_cancel_left h)
    omega

theorem digitsLoop_shape : ∀ (n : Nat) (r : List Char), (∀ c ∈ r, c.isDigit = true) →
    (∀ c ∈ digitsLoop 48 n r, c.isDigit = true) ∧
      (n ≠ 0 → ∃ c, (digitsLoop 48 n r).head? = some c ∧ c ≠ '0') := by
  intro n
  induction n using Nat.strong_induction_on with
  | _ n ih =>
    intro r hr
    unfold digitsLoop
    split_ifs with h
    · exact ⟨hr, fun hc => absurd h hc⟩
    · have hd : ∀ d < 10, (Char.ofNat (48 + d)).isDigit = true := by decide
      have hnz : ∀ d < 10, d ≠ 0 → Char.ofNat (48 + d) ≠ '0' := by decide
      have hr' : ∀ c ∈ Char.ofNat (48 + n % 10) :: r, c.isDigit = true := by
        intro c hc
        rcases List.mem_cons.mp hc with rfl | hc
        · exact hd _ (by omega)
        · exact hr c hc
      obtain ⟨h1, h2⟩ := ih (n / 10) (by omega) _ hr'
      refine ⟨h1, fun _ => ?_⟩
      by_cases h0 : n / 10 = 0
      · rw [h0]
        unfold digitsLoop
        rw [if_pos rfl]
        exact ⟨_, rfl, hnz _ (by omega) (by omega)⟩
      · exact h2 h0

/-- A decimal numeral without leading zero for `n`. -/
def Numeral (n : Nat) (l : List Char) : Prop :=
  (∀ c ∈ l, c.isDigit = true) ∧ value 48 l = n ∧ ∃ c, l.head? = some c ∧ c ≠ '0'

theorem decimal_numeral {n : Nat} (h : n ≠ 0) : Numeral n (decimal n) := by
  have hd : decimal n = digitsLoop 48 n [] := by simp [decimal, h]
  obtain ⟨h1, h2⟩ := digitsLoop_shape n [] (by simp)
  rw [← hd] at h1 h2
  exact ⟨h1, decimal_value n, h2 h⟩

/-- **C40** The default name of a type variable: one letter from `A` to `Y`, then `Z1`, `Z2`, ... -/
theorem C40_type_name_shape (n : Nat) :
    (n < 25 → latin n = [Char.ofNat ('A'.toNat + n)]) ∧
    (25 ≤ n → ∃ l, latin n = 'Z' :: l ∧ Numeral (n - 24) l) := by
  constructor
  · intro h
    unfold latin indexToString
    simp only []
    rw [if_pos (by omega), if_pos (Or.inl (by omega))]
    rfl
  · intro h
    refine ⟨decimal (n - 24), ?_, decimal_numeral (by omega)⟩
    unfold latin indexToString
    simp only []
    rw [if_neg (by omega), show 65 + n - 89 = n - 24 by omega]
    rfl

/-- **C40** The name of a mutability variable: one Greek letter, then `T1`, `T2`, ..., with a mark. -/
theorem C40_mutability_name_shape (n : Nat) :
    (n < 25 → mutName n = [Char.ofNat ('α'.toNat + n), 'ₘ']) ∧
    (25 ≤ n → ∃ l, mutName n = 'T' :: l ++ ['ₘ'] ∧ Numeral (n - 24) l) := by
  constructor
  · intro h
    unfold mutName greek indexToString
    simp only []
    rw [if_pos (by omega), if_pos (Or.inl (by omega))]
    rfl
  · intro h
    refine ⟨decimal (n - 24), ?_, decimal_numeral (by omega)⟩
    unfold mutName greek indexToString
    simp only []
    rw [if_neg (by omega), show 945 + n - 969 = n - 24 by omega]
    rfl

/-- **C40** Different type variables have different default names. -/
theorem C40_type_names_distinct {m n : Nat} (h : latin m = latin n) : m = n :=
  indexToString_injective (fun u _ h => Or.inl (by omega)) h

/-- **C40** Different mutability variables have different names. -/
theorem C40_mutability_names_distinct {m n : Nat} (h : mutName m = mutName n) : m = n := by
  unfold mutName at h
  exact indexToString_injective (fun u _ h => Or.inl (by omega)) (List.append_cancel_right h)

/-- **C40** Different effect variables have different names. -/
theorem C40_effect_names_distinct {m n : Nat} (h : effName m = effName n) : m = n := by
  have hs : ∀ k, value 0x2080 (subscript k) = k := by
    intro k
    unfold subscript
    split_ifs with h
    · subst h; rfl
    · rw [digitsLoop_value digits_sub]; simp [value]
  have : subscript m = subscript n := by simpa [effName] using h
  rw [← hs m, this, hs]

open Classical in
/-- A name can always be found: the search ends. -/
theorem pick_spec {name : Nat → List Char} (hinj : ∀ m n, name m = name n → m = n) :
    ∀ (k : Nat) (used : List (List Char)) (i : Nat),
      ((used.toFinset).filter fun s => ∃ j ≥ i, name j = s).card ≤ k →
      ∃ c, pick name used i = some c ∧ c ∉ used := by
  intro k
  induction k with
  | zero =>
    intro used i h
    unfold pick
    split_ifs with hm
    · exfalso
      have : name i ∈ (used.toFinset).filter fun s => ∃ j ≥ i, name j = s := by
        simp only [Finset.mem_filter, List.mem_toFinset]
        exact ⟨hm, i, le_rfl, rfl⟩
      have := Finset.card_pos.mpr ⟨_, this⟩
      omega
    · exact ⟨_, rfl, hm⟩
  | succ k ih =>
    intro used i h
    unfold pick
    split_ifs with hm
    · refine ih used (i + 1) ?_
      have hlt : ((used.toFinset).filter fun s => ∃ j ≥ i + 1, name j = s) ⊂
          ((used.toFinset).filter fun s => ∃ j ≥ i, name j = s) := by
        rw [Finset.ssubset_iff_of_subset]
        · refine ⟨name i, ?_, ?_⟩
          · simp only [Finset.mem_filter, List.mem_toFinset]
            exact ⟨hm, i, le_rfl, rfl⟩
          · simp only [Finset.mem_filter, List.mem_toFinset, not_and, not_exists]
            intro _ j hj he
            have := hinj _ _ he
            omega
        · intro s hs
          simp only [Finset.mem_filter, List.mem_toFinset] at hs ⊢
          obtain ⟨h1, j, hj, h2⟩ := hs
          exact ⟨h1, j, by omega, h2⟩
      have := Finset.card_lt_card hlt
      omega
    · exact ⟨_, rfl, hm⟩

/-- The invariant of the loops: given names are in use and pairwise different. -/
structure NamesOk (st : Naming) : Prop where
  used : ∀ q c, (q, c) ∈ st.names → c ∈ st.used
  distinct : ∀ q c q' c', (q, c) ∈ st.names → (q', c') ∈ st.names → c = c' → q = q'

theorem sourceNames_ok (quantified : Nat → Bool) : ∀ (ns : List (List Char)) (i : Nat) (st : Naming),
    NamesOk st → ns.Nodup → (∀ n ∈ ns, n ∉ st.used) → NamesOk (sourceNames quantified ns i st) := by
  intro ns
  induction ns with
  | nil => intro i st h _ _; exact h
  | cons n ns ih =>
    intro i st h hnd hfresh
    simp only [sourceNames]
    refine ih (i + 1) _ ?_ (List.nodup_cons.mp hnd).2 ?_
    · have hn : n ∉ st.used := hfresh n (by simp)
      split_ifs
      · constructor
        · intro q c hm
          rcases List.mem_cons.mp hm with he | hm
          · cases he; simp
          · exact List.mem_cons_of_mem _ (h.used q c hm)
        · intro q c q' c' h1 h2 hc
          subst hc
          rcases List.mem_cons.mp h1 with e1 | h1 <;> rcases List.mem_cons.mp h2 with e2 | h2
          · cases e1; cases e2; rfl
          · cases e1; exact absurd (h.used _ _ h2) hn
          · cases e2; exact absurd (h.used _ _ h1) hn
          · exact h.distinct _ _ _ _ h1 h2 rfl
      · exact ⟨fun q c hm => List.mem_cons_of_mem _ (h.used q c hm), h.distinct⟩
    · intro n' hn' hmem
      rcases List.mem_cons.mp hmem with rfl | hmem
      · exact (List.nodup_cons.mp hnd).1 hn'
      · exact hfresh n' (by simp [hn']) hmem

theorem lookup_isSome_iff {l : List (Nat × List Char)} {q : Nat} :
    (l.lookup q).isSome = true ↔ ∃ c, (q, c) ∈ l := by
  induction l with
  | nil => simp
  | cons p l ih =>
    obtain ⟨k, v⟩ := p
    rw [List.lookup_cons]
    by_cases h : q = k
    · subst h
      simp only [BEq.rfl, Option.isSome_some, true_iff]
      exact ⟨v, by simp⟩
    · have : (q == k) = false := by simpa using h
      simp only [this]
      rw [ih]
      simp [h]

theorem nameStep_ok {name : Nat → List Char} (hinj : ∀ m n, name m = name n → m = n) {st : Naming}
    (h : NamesOk st) (q : Nat) :
    ∃ st', nameStep name st q = some st' ∧ NamesOk st' ∧
      (∀ p ∈ st.names, p ∈ st'.names) ∧ ∃ c, (q, c) ∈ st'.names := by
  unfold nameStep
  split_ifs with hs
  · exact ⟨st, rfl, h, fun _ hp => hp, lookup_isSome_iff.mp hs⟩
  · obtain ⟨c, hc, hfresh⟩ := pick_spec hinj _ st.used q le_rfl
    refine ⟨⟨(q, c) :: st.names, c :: st.used⟩, by simp [hc], ?_, fun p hp => List.mem_cons_of_mem _ hp,
      c, by simp⟩
    constructor
    · intro q' c' hm
      rcases List.mem_cons.mp hm with he | hm
      · cases he; simp
      · exact List.mem_cons_of_mem _ (h.used _ _ hm)
    · intro q1 c1 q2 c2 h1 h2 he
      subst he
      rcases List.mem_cons.mp h1 with e1 | h1 <;> rcases List.mem_cons.mp h2 with e2 | h2
      · cases e1; cases e2; rfl
      · cases e1; exact absurd (h.used _ _ h2) hfresh
      · cases e2; exact absurd (h.used _ _ h1) hfresh
      · exact h.distinct _ _ _ _ h1 h2 rfl

theorem names_foldl {name : Nat → List Char} (hinj : ∀ m n, name m = name n → m = n) :
    ∀ (qs : List Nat) (st : Naming), NamesOk st →
      ∃ st', qs.foldlM (nameStep name) st = some st' ∧ NamesOk st' ∧
        (∀ p ∈ st.names, p ∈ st'.names) ∧ ∀ q ∈ qs, ∃ c, (q, c) ∈ st'.names := by
  intro qs
  induction qs with
  | nil => intro st h; exact ⟨st, rfl, h, fun _ hp => hp, by simp⟩
  | cons q qs ih =>
    intro st h
    obtain ⟨st1, e1, ok1, keep1, c, hc⟩ := nameStep_ok hinj h q
    obtain ⟨st2, e2, ok2, keep2, all2⟩ := ih st1 ok1
    refine ⟨st2, by simp [List.foldlM_cons, e1, e2], ok2, fun p hp => keep2 p (keep1 p hp), ?_⟩
    intro q' hq'
    rcases List.mem_cons.mp hq' with rfl | hq'
    · exact ⟨c, keep2 _ hc⟩
    · exact all2 q' hq'

theorem sourceNames_mem (quantified : Nat → Bool) : ∀ (ns : List (List Char)) (i : Nat) (st : Naming)
    (p : Nat × List Char), p ∈ st.names → p ∈ (sourceNames quantified ns i st).names := by
  intro ns
  induction ns with
  | nil => intro i st p h; exact h
  | cons n ns ih =>
    intro i st p h
    simp only [sourceNames]
    refine ih _ _ p ?_
    simp only []
    split_ifs
    · exact List.mem_cons_of_mem _ h
    · exact h

theorem sourceNames_own (quantified : Nat → Bool) : ∀ (ns : List (List Char)) (i : Nat) (st : Naming)
    (k : Nat) (n : List Char), ns[k]? = some n → quantified (i + k) = true →
    (i + k, n) ∈ (sourceNames quantified ns i st).names := by
  intro ns
  induction ns with
  | nil => intro i st k n h; simp at h
  | cons m ns ih =>
    intro i st k n h hq
    simp only [sourceNames]
    cases k with
    | zero =>
      simp only [List.getElem?_cons_zero, Option.some.injEq] at h
      subst h
      refine sourceNames_mem quantified ns (i + 1) _ _ ?_
      simp only [Nat.add_zero] at hq ⊢
      simp [hq]
    | succ k =>
      have := ih (i + 1) ⟨if quantified i then (i, m) :: st.names else st.names, m :: st.used⟩ k n
        (by simpa using h) (by rw [← hq]; congr 1; omega)
      rwa [show i + 1 + k = i + (k + 1) by omega] at this

/-- What a displayed signature needs: every quantified variable has a name, a source parameter keeps the
name the user wrote, and no two variables share one. -/
structure Distinct (source : List (List Char)) (quantifiers : List Nat) (st : Naming) : Prop where
  named : ∀ q ∈ quantifiers, ∃ c, (q, c) ∈ st.names
  kept : ∀ (q : Nat) (c : List Char), q ∈ quantifiers → source[q]? = some c → (q, c) ∈ st.names
  distinct : ∀ q c q' c', (q, c) ∈ st.names → (q', c') ∈ st.names → q ≠ q' → c ≠ c'

/-- **C40** Displaying a signature always finds names for its type variables, pairwise different and
different from the names of the user's own parameters, which are kept. -/
theorem C40_signature_type_names (source : List (List Char)) (hs : source.Nodup) (quantifiers : List Nat) :
    ∃ st, typeNames source quantifiers = some st ∧ Distinct source quantifiers st := by
  have h0 : NamesOk ⟨[], []⟩ := ⟨by simp, by simp⟩
  have h1 := sourceNames_ok (fun i => quantifiers.contains i) source 0 ⟨[], []⟩ h0 hs (by simp)
  obtain ⟨st, e, ok, keep, all⟩ := names_foldl (name := latin)
    (fun m n h => C40_type_names_distinct h) quantifiers _ h1
  refine ⟨st, e, all, ?_, fun q c q' c' h h' hne hc => hne (ok.distinct _ _ _ _ h h' hc)⟩
  intro q c hq hc
  have := sourceNames_own (fun i => quantifiers.contains i) source 0 ⟨[], []⟩ q c hc (by simpa using hq)
  simp only [Nat.zero_add] at this
  exact keep _ this

/-- **C40** The same for effect variables. -/
theorem C40_signature_effect_names (source : List (List Char)) (hs : source.Nodup) (quantifiers : List Nat) :
    ∃ st, effectNames source quantifiers = some st ∧ Distinct source quantifiers st := by
  have h0 : NamesOk ⟨[], []⟩ := ⟨by simp, by simp⟩
  have h1 := sourceNames_ok (fun _ => true) source 0 ⟨[], []⟩ h0 hs (by simp)
  obtain ⟨st, e, ok, keep, all⟩ := names_foldl (name := effName)
    (fun m n h => C40_effect_names_distinct h) quantifiers _ h1
  refine ⟨st, e, all, ?_, fun q c q' c' h h' hne hc => hne (ok.distinct _ _ _ _ h h' hc)⟩
  intro q c hq hc
  have := sourceNames_own (fun _ => true) source 0 ⟨[], []⟩ q c hc rfl
  simp only [Nat.zero_add] at this
  exact keep _ this

/-- A user parameter called `B` on variable 0, and the variables 0, 1 and 2: variable 1 would be shown as
`B` by default. -/
example : [['B']].Nodup ∧ latin 1 = ['B'] := by decide

end Ferlium.Names
