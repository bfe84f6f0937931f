import Verif.Proofs.ArrayAlgo

/-!
Array algorithms: C04 (sort), C05 (reverse), C06 (split/join), part of C07 (contains).
-/
namespace Ferlium.Algo.Props
open Ferlium.Algo

variable {α : Type}

/-- **C04.** Sorting ends without an index panic for every array and every comparison, and always returns a
permutation; if the comparison is a total preorder the result is ordered, and for every probe `q` the elements that
compare equal to `q` keep their relative order (stability). -/
theorem C04_stable_sort (cmp : α → α → Ordering) (xs : List α) :
    ∃ ys, mergeSortBy cmp xs = some ys ∧ ys.Perm xs ∧
      (TotalPreorder cmp →
        ys.Pairwise (fun a b => cmp a b ≠ .gt) ∧
        ∀ q, ys.filter (fun z => cmp q z == .eq) = xs.filter (fun z => cmp q z == .eq)) :=
  ⟨sortL cmp xs, mergeSortBy_eq cmp xs, sortL_perm cmp xs, fun T => ⟨sortL_sorted T xs, fun q => sortL_stable T q xs⟩⟩

/-- Comparing pairs by their first component only is a total preorder that is not antisymmetric, so stability has
content. -/
def cmpFst (a b : Nat × Nat) : Ordering := compare a.1 b.1

theorem cmpFst_preorder : TotalPreorder cmpFst := by
  refine ⟨?_, ?_⟩
  · intro a b; simp only [cmpFst]; exact (Nat.compare_swap a.1 b.1).symm
  · intro a b c; simp only [cmpFst, ne_eq, Nat.compare_eq_gt]; omega

example : ∃ ys, mergeSortBy cmpFst [(2, 0), (1, 1), (2, 2), (1, 3), (0, 4)] = some ys ∧
    ys.filter (fun z => cmpFst (2, 9) z == .eq) = [(2, 0), (2, 2)] := by
  obtain ⟨ys, h1, _, h2⟩ := C04_stable_sort cmpFst [(2, 0), (1, 1), (2, 2), (1, 3), (0, 4)]
  exact ⟨ys, h1, by rw [(h2 cmpFst_preorder).2]; decide⟩

/-- **C05 (reverse).** Reversing succeeds on every array, sends element `i` to position `len-1-i`, keeps the length,
and reversing twice gives the original. -/
theorem C05_reverse (xs : List α) :
    ∃ ys, reverse xs = some ys ∧ ys.length = xs.length ∧
      (∀ i, i < xs.length → ys[xs.length - 1 - i]? = xs[i]?) ∧ reverse ys = some xs := by
  have key : ∀ zs : List α, reverse zs = some zs.reverse := by
    intro zs
    have := reverseLoop_spec zs [] []
    simpa [reverse] using this
  refine ⟨xs.reverse, key xs, by simp, ?_, ?_⟩
  · intro i hi
    rw [List.getElem?_reverse (by omega)]
    congr 1; omega
  · rw [key, List.reverse_reverse]

example : reverse [1, 2, 3, 4] = some [4, 3, 2, 1] := by decide

/-! ### C06 -/

/-- Number of non-overlapping occurrences of `sep`, scanning from the left. -/
def occurrences [BEq α] (sep : List α) : List α → Nat
  | [] => 0
  | x :: xs => if sep.isPrefixOf (x :: xs) then occurrences sep (xs.drop (sep.length - 1)) + 1 else occurrences sep xs
termination_by xs => xs.length
decreasing_by
  · simp; omega
  · simp

/-- `sep` occurs in `p` as a contiguous run. -/
def occursIn (sep p : List α) : Prop := ∃ a b, p = a ++ sep ++ b

theorem occurrences_zero [DecidableEq α] (sep : List α) (xs : List α)
    (h : ∀ i, i + sep.length ≤ xs.length → (xs.drop i).take sep.length ≠ sep) : occurrences sep xs = 0 := by
  induction xs with
  | nil => rw [occurrences]
  | cons x xs ih =>
    rw [occurrences, if_neg, ih]
    · intro i hi; have := h (i + 1) (by simp; omega); simpa using this
    · rw [List.isPrefixOf_iff_prefix]
      rintro ⟨t, ht⟩
      refine h 0 ?_ ?_
      · rw [← ht]; simp
      · rw [← ht]; simp

theorem occurrences_cut [DecidableEq α] (sep p rest : List α) (hsep : sep ≠ [])
    (h : ∀ i, i < p.length → ((p ++ sep ++ rest).drop i).take sep.length ≠ sep) :
    occurrences sep (p ++ sep ++ rest) = 1 + occurrences sep rest := by
  induction p with
  | nil =>
    obtain ⟨s, ss, rfl⟩ := List.exists_cons_of_ne_nil hsep
    simp only [List.nil_append, List.cons_append]
    rw [occurrences, if_pos]
    · simp; omega
    · rw [List.isPrefixOf_iff_prefix]; exact ⟨rest, rfl⟩
  | cons a p ih =>
    simp only [List.cons_append]
    rw [occurrences, if_neg]
    · have := ih (fun i hi => by have := h (i + 1) (by simp; omega); simpa using this)
      simpa using this
    · rw [List.isPrefixOf_iff_prefix]
      rintro ⟨t, ht⟩
      apply h 0 (by simp)
      rw [List.drop_zero]
      have : a :: p ++ sep ++ rest = sep ++ t := by simpa using ht.symm
      rw [this]; simp

theorem splitRel_consequences [DecidableEq α] (sep : List α) (hsep : sep ≠ []) {P : List α → Bool}
    (hP : ∀ win, P win = true ↔ win = sep) {xs : List α} {ps : List (List α)} (h : SplitRel P sep.length xs ps) :
    join (· ++ ·) [] ps sep = xs ∧ (∀ p ∈ ps, ¬ occursIn sep p) ∧ ps.length = 1 + occurrences sep xs := by
  have hPf : ∀ win, P win = false → win ≠ sep := by
    intro win hf he; rw [(hP win).mpr he] at hf; cases hf
  induction h with
  | last xs h =>
    refine ⟨rfl, ?_, ?_⟩
    · intro p hp
      simp only [List.mem_singleton] at hp
      subst hp
      rintro ⟨a, b, hab⟩
      refine hPf _ (h a.length ?_) ?_
      · rw [hab]; simp
      · rw [hab]; simp
    · rw [occurrences_zero sep xs (fun i hi => hPf _ (h i hi))]; rfl
  | cut p s rest ps hs hPs hno hrel ih =>
    have hse := (hP s).mp hPs
    subst hse
    obtain ⟨h1, h2, h3⟩ := ih
    refine ⟨?_, ?_, ?_⟩
    · rw [join_cons s p hrel.ne_nil, h1]
    · intro q hq
      rcases List.mem_cons.mp hq with rfl | hq'
      · rintro ⟨a, b, hab⟩
        have hpos : 0 < s.length := List.length_pos_of_ne_nil hsep
        refine hPf _ (hno a.length ?_) ?_
        · rw [hab]; simp; omega
        · rw [hab]; simp
      · exact h2 q hq'
    · rw [occurrences_cut s p rest hsep (fun i hi => hPf _ (hno i hi)), List.length_cons, h3]; omega

theorem arrEq_iff {eq : α → α → Bool} (hlaw : ∀ a b, eq a b = true ↔ a = b) (xs ys : List α) :
    arrEq eq xs ys = true ↔ xs = ys := by
  unfold arrEq
  induction xs generalizing ys with
  | nil => cases ys <;> simp [List.isEqv]
  | cons x xs ih => cases ys with
    | nil => simp [List.isEqv]
    | cons y ys => simp [List.isEqv, hlaw, ih]

/-- **C06 (arrays, sequence separator).** For every array and separator: an empty separator is rejected; otherwise the
iterator terminates and cuts exactly at the leftmost windows equal to the separator (for any user equality); when
`==` is identity, joining the parts with the separator gives the array back, no part contains the separator, and there
is one more part than there are non-overlapping occurrences. -/
theorem C06_split_array [DecidableEq α] (eq : α → α → Bool) (xs sep : List α) :
    (sep = [] → splitArr eq xs sep = .invalidArgument) ∧
    (sep ≠ [] → ∃ ps, splitArr eq xs sep = .parts ps ∧
      SplitRel (fun win => arrEq eq win sep) sep.length xs ps ∧
      ((∀ a b, eq a b = true ↔ a = b) →
        join (· ++ ·) [] ps sep = xs ∧ (∀ p ∈ ps, ¬ occursIn sep p) ∧ ps.length = 1 + occurrences sep xs)) := by
  refine ⟨fun h => by simp [splitArr, h], fun hsep => ?_⟩
  have hpos : 0 < sep.length := List.length_pos_of_ne_nil hsep
  obtain ⟨ps, h1, h2⟩ := collect_spec hpos (arr_nextSpec eq xs sep) _ 0 rfl (by omega)
  rw [List.drop_zero] at h2
  refine ⟨ps, ?_, h2, fun hlaw => splitRel_consequences sep hsep (fun win => arrEq_iff hlaw win sep) h2⟩
  unfold splitArr
  rw [if_neg (by omega)]
  have : collect (arrNext eq xs sep) startIt = some ps := h1
  rw [this]

/-- **C06 (arrays, element separator).** -/
theorem C06_split_element [DecidableEq α] (eq : α → α → Bool) (xs : List α) (sep : α) :
    ∃ ps, splitElem eq xs sep = some ps ∧ SplitRel (fun win => arrEq eq win [sep]) 1 xs ps ∧
      ((∀ a b, eq a b = true ↔ a = b) →
        join (· ++ ·) [] ps [sep] = xs ∧ (∀ p ∈ ps, sep ∉ p) ∧ ps.length = 1 + occurrences [sep] xs) := by
  obtain ⟨ps, h1, h2⟩ := collect_spec (by omega) (elem_nextSpec eq xs sep) _ 0 rfl (by omega)
  rw [List.drop_zero] at h2
  refine ⟨ps, h1, h2, fun hlaw => ?_⟩
  obtain ⟨a, b, c⟩ := splitRel_consequences [sep] (by simp) (fun win => arrEq_iff hlaw win [sep]) h2
  refine ⟨a, ?_, c⟩
  intro p hp hmem
  obtain ⟨u, v, huv⟩ := List.append_of_mem hmem
  exact b p hp ⟨u, v, by rw [huv]; simp⟩

/-- Every prefix of the clusters, as text, is left alone by `nfc`: what "NFC text cut at a grapheme boundary is NFC"
means for the text `gs`. -/
def PrefixNormal {χ : Type} (nfc : List χ → List χ) (gs : List (List χ)) : Prop :=
  ∀ n, nfc (gs.take n).flatten = (gs.take n).flatten

theorem strJoin_aux {χ : Type} [DecidableEq χ] (nfc : List χ → List χ) (gs : List (List χ))
    (hn : PrefixNormal nfc gs) (t : List χ) (w : Nat) : ∀ (rest : List (List χ)) (ps : List (List (List χ))),
    SplitRel (fun win => decide (win.flatten = t)) w rest ps → ∀ pre, gs = pre ++ rest →
      ∃ q qs, ps = q :: qs ∧
        ∀ acc, acc = (pre ++ q).flatten →
          joinLoop (fun a b => nfc (a ++ b)) t (qs.map List.flatten) acc = gs.flatten := by
  have pn : ∀ a b : List (List χ), gs = a ++ b → nfc a.flatten = a.flatten := by
    intro a b hab
    have := hn a.length
    rw [hab] at this
    simpa using this
  intro rest ps h
  induction h with
  | last xs _ =>
    intro pre hpre
    refine ⟨xs, [], rfl, ?_⟩
    intro acc hacc
    simp only [List.map_nil, joinLoop]
    rw [hacc, hpre]
  | cut p s rest ps hs hP _ hrel ih =>
    intro pre hpre
    have hst : s.flatten = t := by simpa using hP
    obtain ⟨q, qs, rfl, hjoin⟩ := ih (pre ++ p ++ s) (by rw [hpre]; simp)
    refine ⟨p, q :: qs, rfl, ?_⟩
    intro acc hacc
    simp only [List.map_cons, joinLoop]
    apply hjoin
    have e1 : acc ++ t = (pre ++ p ++ s).flatten := by rw [hacc, ← hst]; simp
    have e2 : nfc (acc ++ t) = (pre ++ p ++ s).flatten := by
      rw [e1]; exact pn _ rest (by rw [hpre]; simp)
    rw [e2]
    -- `q` is a prefix of `rest`
    have hq : ∃ tail, rest = q ++ tail := by
      cases hrel with
      | last _ _ => exact ⟨[], by simp⟩
      | cut _ s' r' _ _ _ _ _ => exact ⟨s' ++ r', by simp⟩
    obtain ⟨tail, htail⟩ := hq
    have e3 : (pre ++ p ++ s).flatten ++ q.flatten = (pre ++ p ++ s ++ q).flatten := by simp
    rw [e3]
    exact pn _ tail (by rw [hpre, htail]; simp)

/-- **C06 (strings).** A string is given by its grapheme clusters `gs`; the separator by its clusters `sep`.  An empty
separator is rejected; otherwise splitting terminates, cuts exactly at the leftmost grapheme-aligned windows whose text
is the separator's text, and joining the parts back (each concatenation normalising, for any normaliser that leaves
grapheme-aligned prefixes of the text alone) gives exactly the original text. -/
theorem C06_split_string {χ : Type} [DecidableEq χ] (gs sep : List (List χ)) (nfc : List χ → List χ) :
    (sep.flatten = [] → splitStr gs sep = .invalidArgument) ∧
    (sep.flatten ≠ [] → ∃ ps, splitStr gs sep = .parts ps ∧
      SplitRel (fun win => decide (win.flatten = sep.flatten)) sep.length gs ps ∧
      (PrefixNormal nfc gs →
        join (fun a b => nfc (a ++ b)) [] (ps.map List.flatten) sep.flatten = gs.flatten)) := by
  refine ⟨fun h => by simp [splitStr, h], fun hsep => ?_⟩
  have hpos : 0 < sep.length := by
    apply List.length_pos_of_ne_nil; rintro rfl; simp at hsep
  obtain ⟨ps, h1, h2⟩ := collect_spec hpos (str_nextSpec gs sep.flatten sep.length) _ 0 rfl (by omega)
  rw [List.drop_zero] at h2
  refine ⟨ps, ?_, h2, ?_⟩
  · unfold splitStr
    rw [if_neg (fun h0 => hsep (List.eq_nil_of_length_eq_zero h0))]
    have : collect (strNext gs sep.flatten sep.length) startIt = some ps := h1
    rw [this]
  · intro hn
    obtain ⟨q, qs, rfl, hj⟩ := strJoin_aux nfc gs hn _ _ gs ps h2 [] rfl
    simp only [join, List.map_cons]
    exact hj _ (by simp)

example : ∃ ps, splitArr (fun a b : Nat => a == b) [1, 0, 0, 0, 2, 0, 0] [0, 0] = .parts ps ∧ ps.length = 3 := by
  obtain ⟨ps, h1, _, h2⟩ := (C06_split_array (fun a b : Nat => a == b) [1, 0, 0, 0, 2, 0, 0] [0, 0]).2 (by simp)
  refine ⟨ps, h1, ?_⟩
  rw [(h2 (by simp)).2.2]
  simp [occurrences, List.isPrefixOf]

example : ∃ ps, splitElem (fun a b : Nat => a == b) [1, 0, 2, 0] 0 = some ps ∧ ps.length = 3 := by
  obtain ⟨ps, h1, _, h2⟩ := C06_split_element (fun a b : Nat => a == b) [1, 0, 2, 0] 0
  refine ⟨ps, h1, ?_⟩
  rw [(h2 (by simp)).2.2]
  simp [occurrences, List.isPrefixOf]

example : ∃ ps, splitStr [['a'], ['e', '\u0301'], ['b']] [['e', '\u0301']] = .parts ps ∧
    join (fun a b => id (a ++ b)) [] (ps.map List.flatten) ['e', '\u0301'] = ['a', 'e', '\u0301', 'b'] := by
  obtain ⟨ps, h1, _, h2⟩ := (C06_split_string [['a'], ['e', '\u0301'], ['b']] [['e', '\u0301']] id).2 (by simp)
  exact ⟨ps, h1, h2 (fun _ => rfl)⟩

/-- **C07 (contains).** -/
theorem C07_contains (eq : α → α → Bool) (xs : List α) (e : α) :
    contains eq xs e = true ↔ ∃ x ∈ xs, eq x e = true := by
  induction xs with
  | nil => simp [contains]
  | cons x xs ih => rw [contains]; split <;> simp_all

end Ferlium.Algo.Props
