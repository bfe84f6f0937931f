import Verif.Model.ArrayAlgo
import Mathlib.Data.List.Basic

/-! Helper lemmas for `Verif.Props.ArrayAlgo`. -/
namespace Ferlium.Algo

variable {α : Type}

/-! ### Slices -/

theorem sl_length (xs : List α) (s e : Nat) : (sl xs s e).length = min e xs.length - s := by
  simp [sl]

theorem sl_nil (xs : List α) {s e : Nat} (h : e ≤ s) : sl xs s e = [] := by
  apply List.eq_nil_of_length_eq_zero; rw [sl_length]; omega

theorem sl_cons (xs : List α) {s e : Nat} (h : s < e) (h2 : s < xs.length) :
    sl xs s e = xs[s] :: sl xs (s + 1) e := by
  unfold sl
  rw [List.drop_eq_getElem_cons (by simp; omega)]
  simp

theorem sl_append (xs : List α) {s m e : Nat} (h1 : s ≤ m) (h2 : m ≤ e) : sl xs s m ++ sl xs m e = sl xs s e := by
  apply List.ext_getElem?
  intro i
  simp only [sl, List.getElem?_append, List.getElem?_drop, List.getElem?_take, List.length_drop, List.length_take]
  by_cases hm : m ≤ xs.length
  · split_ifs <;> first | rfl | omega | (congr 1; omega)
  · split_ifs <;> first | rfl | omega | (congr 1; omega) | skip
    all_goals (rw [List.getElem?_eq_none (by omega)] <;> rw [List.getElem?_eq_none (by omega)])

/-! ### Reverse -/

theorem reverseLoop_spec (mid : List α) : ∀ pre post : List α,
    reverseLoop (pre.length + mid.length) pre.length (pre ++ mid ++ post) = some (pre ++ mid.reverse ++ post) := by
  induction hn : mid.length using Nat.strongRecOn generalizing mid with
  | ind n ih =>
    intro pre post
    match hmid : mid with
    | [] =>
      subst hmid
      simp only [List.length_nil] at hn
      subst hn
      simp only [Nat.add_zero]
      cases hp : pre.length with
      | zero => simp [reverseLoop]
      | succ k => rw [reverseLoop, if_pos (by omega)]; simp
    | [a] =>
      subst hmid
      simp only [List.length_cons, List.length_nil] at hn
      subst hn
      rw [show pre.length + (0 + 1) = pre.length + 1 by omega, reverseLoop, if_neg (by omega), if_pos (by omega)]
      simp
    | a :: b :: t =>
      obtain ⟨m, z, hz⟩ : ∃ m z, b :: t = m ++ [z] := by
        rcases List.eq_nil_or_concat (b :: t) with h | ⟨m, z, h⟩
        · cases h
        · exact ⟨m, z, by simpa using h⟩
      rw [hz] at hn ⊢
      clear hz hmid b t
      simp only [List.length_cons, List.length_append, List.length_nil] at hn
      subst hn
      have e1 : pre ++ (a :: (m ++ [z])) ++ post = pre ++ a :: (m ++ z :: post) := by simp
      have hl : rd (pre ++ a :: (m ++ z :: post)) pre.length = some a := by simp [rd]
      have hr : rd (pre ++ a :: (m ++ z :: post)) (pre.length + (m.length + 1)) = some z := by
        simp only [rd]
        rw [List.getElem?_append_right (by omega)]
        simp
      have w1 : wr (pre ++ a :: (m ++ z :: post)) pre.length z = some (pre ++ z :: (m ++ z :: post)) := by
        unfold wr; rw [if_pos (by simp), List.set_append_right _ _ (by omega)]; simp
      have w2 : wr (pre ++ z :: (m ++ z :: post)) (pre.length + (m.length + 1)) a =
          some (pre ++ z :: (m ++ a :: post)) := by
        unfold wr
        rw [if_pos (by simp), List.set_append_right _ _ (by omega)]
        simp
      rw [e1, show pre.length + (m.length + (0 + 1) + 1) = pre.length + (m.length + 1) + 1 by omega, reverseLoop,
        if_neg (by omega), if_neg (by omega), hl]
      simp only [hr, w1, w2]
      have := ih m.length (by omega) m rfl (pre ++ [z]) (a :: post)
      simp only [List.length_append, List.length_cons, List.length_nil] at this
      rw [show pre.length + (0 + 1) + m.length = pre.length + (m.length + 1) by omega,
        show pre.length + (0 + 1) = pre.length + 1 by omega] at this
      rw [show pre ++ z :: (m ++ a :: post) = pre ++ [z] ++ m ++ a :: post by simp, this]
      simp

/-! ### Merge sort -/

def leB (cmp : α → α → Ordering) (a b : α) : Bool := cmp a b != Ordering.gt

/-- Functional merge: ties go to the left list. -/
def mergeL (cmp : α → α → Ordering) : List α → List α → List α
  | [], ys => ys
  | xs, [] => xs
  | x :: xs, y :: ys => if leB cmp x y then x :: mergeL cmp xs (y :: ys) else y :: mergeL cmp (x :: xs) ys
termination_by xs ys => xs.length + ys.length

theorem mergeL_nil_left (cmp : α → α → Ordering) (ys : List α) : mergeL cmp [] ys = ys := by
  cases ys <;> simp [mergeL]

theorem mergeL_nil_right (cmp : α → α → Ordering) (xs : List α) : mergeL cmp xs [] = xs := by
  cases xs <;> simp [mergeL]

theorem mergeL_cons (cmp : α → α → Ordering) (x y : α) (xs ys : List α) :
    mergeL cmp (x :: xs) (y :: ys) =
      if leB cmp x y then x :: mergeL cmp xs (y :: ys) else y :: mergeL cmp (x :: xs) ys := by
  rw [mergeL]

theorem mergeL_perm (cmp : α → α → Ordering) (xs ys : List α) : (mergeL cmp xs ys).Perm (xs ++ ys) := by
  fun_induction mergeL cmp xs ys with
  | case1 => simp
  | case2 => simp
  | case3 x xs y ys h ih => exact ih.cons x
  | case4 x xs y ys h ih =>
    exact (ih.cons y).trans (List.perm_middle (l₁ := x :: xs) (l₂ := ys) (a := y)).symm

theorem mergeL_length (cmp : α → α → Ordering) (xs ys : List α) :
    (mergeL cmp xs ys).length = xs.length + ys.length := by
  rw [(mergeL_perm cmp xs ys).length_eq, List.length_append]

theorem wr_mid (pre : List α) (t x : α) (post : List α) :
    wr (pre ++ t :: post) pre.length x = some (pre ++ x :: post) := by
  unfold wr; rw [if_pos (by simp), List.set_append_right _ _ (by omega)]; simp

theorem mergeLoop_spec (cmp : α → α → Ordering) (source : List α) (middle stop : Nat) 
    (hstop : stop ≤ source.length) :
    ∀ (n left right : Nat) (pre mid post : List α), left ≤ middle → middle ≤ right → right ≤ stop →
      mid.length = n → n = (middle - left) + (stop - right) →
      mergeLoop cmp source middle stop n pre.length left right (pre ++ mid ++ post) =
        some (pre ++ mergeL cmp (sl source left middle) (sl source right stop) ++ post) := by
  intro n
  induction n with
  | zero =>
    intro left right pre mid post h1 h2 h3 hm hn
    have : mid = [] := List.eq_nil_of_length_eq_zero hm
    subst this
    rw [sl_nil _ (show middle ≤ left by omega), sl_nil _ (show stop ≤ right by omega), mergeL_nil_left]
    rfl
  | succ n ih =>
    intro left right pre mid post h1 h2 h3 hm hn
    obtain ⟨t, mid, rfl⟩ : ∃ t m, mid = t :: m := by
      cases mid with
      | nil => simp at hm
      | cons t m => exact ⟨t, m, rfl⟩
    simp only [List.length_cons] at hm
    have step : ∀ x : α, wr (pre ++ t :: mid ++ post) pre.length x = some (pre ++ [x] ++ mid ++ post) := by
      intro x
      have := wr_mid pre t x (mid ++ post)
      simpa using this
    have plen : ∀ x : α, pre.length + 1 = (pre ++ [x]).length := by intro x; simp
    rw [mergeLoop]
    by_cases hl : left < middle
    · rw [if_pos hl]
      have hls : left < source.length := by omega
      have hrl : rd source left = some source[left] := by simp [rd, hls]
      by_cases hr : right ≥ stop
      · rw [if_pos hr, hrl]
        simp only [step]
        rw [plen source[left], ih (left + 1) right _ mid post (by omega) h2 h3 (by omega) (by omega)]
        rw [sl_nil source hr, mergeL_nil_right, mergeL_nil_right, sl_cons source hl hls]
        simp
      · rw [if_neg hr]
        have hrs : right < source.length := by omega
        have hrr : rd source right = some source[right] := by simp [rd, hrs]
        rw [hrl, hrr]
        simp only [step]
        by_cases hc : (cmp source[left] source[right] != Ordering.gt) = true
        · rw [if_pos hc, plen source[left], ih (left + 1) right _ mid post (by omega) h2 h3 (by omega) (by omega)]
          rw [sl_cons source hl hls, sl_cons source (show right < stop by omega) hrs, mergeL_cons]
          rw [if_pos (show leB cmp source[left] source[right] = true from hc)]
          simp
        · rw [if_neg hc, plen source[right], ih left (right + 1) _ mid post (by omega) (by omega) (by omega) (by omega) (by omega)]
          rw [sl_cons source hl hls, sl_cons source (show right < stop by omega) hrs, mergeL_cons]
          rw [if_neg (show ¬ leB cmp source[left] source[right] = true from hc)]
          simp
    · rw [if_neg hl]
      have hrs : right < source.length := by omega
      have hrr : rd source right = some source[right] := by simp [rd, hrs]
      rw [hrr]
      simp only [step]
      rw [plen source[right], ih left (right + 1) _ mid post (by omega) (by omega) (by omega) (by omega) (by omega)]
      rw [sl_nil source (show middle ≤ left by omega), mergeL_nil_left, mergeL_nil_left,
        sl_cons source (show right < stop by omega) hrs]
      simp

/-- Functional merge sort splitting at half the length. -/
def sortL (cmp : α → α → Ordering) (xs : List α) : List α :=
  if xs.length > 1 then mergeL cmp (sortL cmp (xs.take (xs.length / 2))) (sortL cmp (xs.drop (xs.length / 2)))
  else xs
termination_by xs.length
decreasing_by
  · simp; omega
  · simp; omega

theorem sortL_perm (cmp : α → α → Ordering) (xs : List α) : (sortL cmp xs).Perm xs := by
  fun_induction sortL cmp xs with
  | case1 xs h ih1 ih2 =>
    refine (mergeL_perm cmp _ _).trans ?_
    refine (ih1.append ih2).trans ?_
    rw [List.take_append_drop]
  | case2 => exact List.Perm.refl _

theorem sortL_length (cmp : α → α → Ordering) (xs : List α) : (sortL cmp xs).length = xs.length :=
  (sortL_perm cmp xs).length_eq

/-- Decomposition of a list around a range. -/
theorem split_range (xs : List α) {s e : Nat} (h : s ≤ e) :
    xs = xs.take s ++ sl xs s e ++ xs.drop e := by
  conv_lhs => rw [← List.take_append_drop e xs]
  congr 1
  unfold sl
  conv_lhs => rw [← List.take_append_drop s (xs.take e), List.take_take, Nat.min_eq_left h]

theorem sl_mid (pre mid post : List α) : sl (pre ++ mid ++ post) pre.length (pre.length + mid.length) = mid := by
  unfold sl
  rw [List.take_append_of_le_length (by simp), List.take_of_length_le (by simp)]
  simp

theorem splitMerge_spec (cmp : α → α → Ordering) : ∀ (mid : List α) (pre post pre' post' : List α),
    pre'.length = pre.length →
    ∃ mid', splitMerge cmp (pre' ++ mid ++ post') (pre ++ mid ++ post) pre.length (pre.length + mid.length) =
      some (pre' ++ mid' ++ post', pre ++ sortL cmp mid ++ post) ∧ mid'.length = mid.length := by
  intro mid
  induction hn : mid.length using Nat.strongRecOn generalizing mid with
  | ind n ih =>
    subst hn
    intro pre post pre' post' hpre
    rw [splitMerge]
    by_cases hlen : mid.length > 1
    · rw [dif_pos (by omega)]
      obtain ⟨a, b, hab, ha⟩ : ∃ a b, mid = a ++ b ∧ a.length = mid.length / 2 :=
        ⟨mid.take (mid.length / 2), mid.drop (mid.length / 2), (List.take_append_drop _ _).symm, by simp; omega⟩
      have hb : b.length = mid.length - mid.length / 2 := by
        have := congrArg List.length hab; simp at this; omega
      have hsort : sortL cmp mid = mergeL cmp (sortL cmp a) (sortL cmp b) := by
        rw [sortL, if_pos hlen]
        have t1 : mid.take (mid.length / 2) = a := by
          rw [← ha]; conv_lhs => rw [hab]
          simp
        have t2 : mid.drop (mid.length / 2) = b := by
          rw [← ha]; conv_lhs => rw [hab]
          simp
        rw [t1, t2]
      have hmid : (pre.length + (pre.length + mid.length)) / 2 = pre.length + a.length := by omega
      simp only [hmid]
      obtain ⟨m1, h1, l1⟩ := ih a.length (by omega) a rfl pre' (b ++ post') pre (b ++ post) hpre.symm
      rw [hpre] at h1
      have e1 : pre ++ mid ++ post = pre ++ a ++ (b ++ post) := by rw [hab]; simp
      have e2 : pre' ++ mid ++ post' = pre' ++ a ++ (b ++ post') := by rw [hab]; simp
      rw [e1, e2, h1]
      simp only
      obtain ⟨m2, h2, l2⟩ := ih b.length (by omega) b rfl (pre' ++ sortL cmp a) post' (pre ++ m1) post (by
        simp only [List.length_append, sortL_length]; omega)
      have e3 : pre ++ m1 ++ (b ++ post) = pre ++ m1 ++ b ++ post := by simp
      have e4 : pre' ++ sortL cmp a ++ (b ++ post') = pre' ++ sortL cmp a ++ b ++ post' := by simp
      have e5 : (pre' ++ sortL cmp a).length = pre.length + a.length := by
        simp only [List.length_append, sortL_length]; omega
      rw [e5, show pre.length + a.length + b.length = pre.length + mid.length by omega] at h2
      rw [e3, e4, h2]
      simp only
      unfold mergeRanges
      have hml := mergeLoop_spec cmp (pre' ++ sortL cmp a ++ sortL cmp b ++ post') (pre.length + a.length)
        (pre.length + mid.length) (by simp only [List.length_append, sortL_length]; omega)
        mid.length pre.length (pre.length + a.length) pre (m1 ++ m2) post (by omega) (by omega) (by omega)
        (by simp only [List.length_append]; omega) (by omega)
      have s1 : sl (pre' ++ sortL cmp a ++ sortL cmp b ++ post') pre.length (pre.length + a.length) = sortL cmp a := by
        have := sl_mid pre' (sortL cmp a) (sortL cmp b ++ post')
        rw [hpre, sortL_length] at this
        simpa using this
      have s2 : sl (pre' ++ sortL cmp a ++ sortL cmp b ++ post') (pre.length + a.length) (pre.length + mid.length) =
          sortL cmp b := by
        have := sl_mid (pre' ++ sortL cmp a) (sortL cmp b) post'
        rw [e5, sortL_length, show pre.length + a.length + b.length = pre.length + mid.length by omega] at this
        exact this
      rw [s1, s2] at hml
      have e6 : pre ++ (m1 ++ m2) ++ post = pre ++ m1 ++ m2 ++ post := by simp
      rw [e6] at hml
      rw [show pre.length + mid.length - pre.length = mid.length by omega, hml]
      refine ⟨sortL cmp a ++ sortL cmp b, ?_, ?_⟩
      · rw [hsort]; simp
      · simp only [List.length_append, sortL_length]; omega
    · rw [dif_neg (by omega)]
      refine ⟨mid, ?_, rfl⟩
      rw [sortL, if_neg hlen]

theorem mergeSortBy_eq (cmp : α → α → Ordering) (xs : List α) : mergeSortBy cmp xs = some (sortL cmp xs) := by
  unfold mergeSortBy
  by_cases h : xs.length > 1
  · rw [if_pos h]
    obtain ⟨mid', h1, _⟩ := splitMerge_spec cmp xs [] [] [] [] rfl
    simp only [List.nil_append, List.append_nil, List.length_nil, Nat.zero_add] at h1
    rw [h1]
  · rw [if_neg h, sortL, if_neg h]

/-- A comparison that is a total preorder. -/
structure TotalPreorder (cmp : α → α → Ordering) : Prop where
  swap : ∀ a b, cmp b a = (cmp a b).swap
  trans : ∀ a b c, cmp a b ≠ .gt → cmp b c ≠ .gt → cmp a c ≠ .gt

theorem leB_iff {cmp : α → α → Ordering} {a b : α} : leB cmp a b = true ↔ cmp a b ≠ .gt := by
  simp [leB]

theorem mergeL_sorted {cmp : α → α → Ordering} (T : TotalPreorder cmp) (xs ys : List α)
    (hx : xs.Pairwise (fun a b => cmp a b ≠ .gt)) (hy : ys.Pairwise (fun a b => cmp a b ≠ .gt)) :
    (mergeL cmp xs ys).Pairwise (fun a b => cmp a b ≠ .gt) := by
  fun_induction mergeL cmp xs ys with
  | case1 => exact hy
  | case2 => exact hx
  | case3 x xs y ys h ih =>
    rw [List.pairwise_cons] at hx ⊢
    refine ⟨?_, ih hx.2 hy⟩
    intro z hz
    have := (mergeL_perm cmp _ _).subset hz
    rcases List.mem_append.mp this with h1 | h1
    · exact hx.1 z h1
    · rcases List.mem_cons.mp h1 with rfl | h2
      · exact leB_iff.mp h
      · exact T.trans _ _ _ (leB_iff.mp h) ((List.pairwise_cons.mp hy).1 z h2)
  | case4 x xs y ys h ih =>
    have hyx : cmp y x ≠ .gt := by
      rw [T.swap x y]
      simp only [leB, bne_iff_ne, ne_eq, Decidable.not_not] at h
      rw [h]; decide
    rw [List.pairwise_cons] at hy ⊢
    refine ⟨?_, ih hx hy.2⟩
    intro z hz
    have := (mergeL_perm cmp _ _).subset hz
    rcases List.mem_append.mp this with h1 | h1
    · rcases List.mem_cons.mp h1 with rfl | h2
      · exact hyx
      · exact T.trans _ _ _ hyx ((List.pairwise_cons.mp hx).1 z h2)
    · exact hy.1 z h1

theorem mergeL_stable {cmp : α → α → Ordering} (T : TotalPreorder cmp) (q : α) (xs ys : List α)
    (hx : xs.Pairwise (fun a b => cmp a b ≠ .gt)) :
    (mergeL cmp xs ys).filter (fun z => cmp q z == .eq) =
      xs.filter (fun z => cmp q z == .eq) ++ ys.filter (fun z => cmp q z == .eq) := by
  fun_induction mergeL cmp xs ys with
  | case1 => simp
  | case2 => simp
  | case3 x xs y ys h ih =>
    rw [List.pairwise_cons] at hx
    rw [List.filter_cons, ih hx.2, List.filter_cons (x := x)]
    split <;> simp
  | case4 x xs y ys h ih =>
    rw [List.filter_cons, ih hx]
    cases hq : (cmp q y == .eq) with
    | false => rw [List.filter_cons (x := y)]; simp [hq]
    | true =>
      have hnone : (x :: xs).filter (fun z => cmp q z == .eq) = [] := by
        rw [List.filter_eq_nil_iff]
        intro z hz hqz
        simp only [beq_iff_eq] at hq hqz
        simp only [leB, bne_iff_ne, ne_eq, Decidable.not_not] at h
        have hxz : cmp x z ≠ .gt := by
          rcases List.mem_cons.mp hz with rfl | hz'
          · intro hgt
            have := T.swap z z
            rw [hgt] at this; cases this
          · exact (List.pairwise_cons.mp hx).1 z hz'
        have hzq : cmp z q ≠ .gt := by rw [T.swap q z, hqz]; decide
        have hqy : cmp q y ≠ .gt := by rw [hq]; decide
        exact T.trans _ _ _ hxz (T.trans _ _ _ hzq hqy) h
      rw [hnone, List.filter_cons (x := y)]
      simp [hq]

theorem sortL_sorted {cmp : α → α → Ordering} (T : TotalPreorder cmp) (xs : List α) :
    (sortL cmp xs).Pairwise (fun a b => cmp a b ≠ .gt) := by
  fun_induction sortL cmp xs with
  | case1 xs h ih1 ih2 => exact mergeL_sorted T _ _ ih1 ih2
  | case2 xs h =>
    match xs with
    | [] => exact List.Pairwise.nil
    | [a] => exact List.pairwise_singleton _ _
    | _ :: _ :: _ => simp at h

theorem sortL_stable {cmp : α → α → Ordering} (T : TotalPreorder cmp) (q : α) (xs : List α) :
    (sortL cmp xs).filter (fun z => cmp q z == .eq) = xs.filter (fun z => cmp q z == .eq) := by
  fun_induction sortL cmp xs with
  | case1 xs h ih1 ih2 =>
    rw [mergeL_stable T q _ _ (sortL_sorted T _), ih1, ih2, ← List.filter_append, List.take_append_drop]
  | case2 => rfl

/-! ### Split -/

/-- What the three `next` functions have in common: `P` tests a window of `w` elements. -/
structure NextSpec (P : List α → Bool) (w : Nat) (xs : List α) (next : SplitIt → Option (List α × SplitIt)) : Prop where
  fin : ∀ ns, next ⟨ns, true⟩ = none
  step : ∀ ns, ns ≤ xs.length →
    (∃ s, ns ≤ s ∧ s + w ≤ xs.length ∧ P (sl xs s (s + w)) = true ∧
      (∀ i, ns ≤ i → i < s → P (sl xs i (i + w)) = false) ∧
      next ⟨ns, false⟩ = some (sl xs ns s, ⟨s + w, false⟩)) ∨
    ((∀ i, ns ≤ i → i + w ≤ xs.length → P (sl xs i (i + w)) = false) ∧
      next ⟨ns, false⟩ = some (sl xs ns xs.length, ⟨ns, true⟩))

theorem sl_one (xs : List α) {i : Nat} (h : i < xs.length) : sl xs i (i + 1) = [xs[i]] := by
  rw [sl_cons xs (by omega) h, sl_nil xs (by omega)]

theorem elem_nextSpec (eq : α → α → Bool) (xs : List α) (sep : α) :
    NextSpec (fun win => arrEq eq win [sep]) 1 xs (elemNext eq xs sep) := by
  refine ⟨fun ns => by simp [elemNext], ?_⟩
  intro ns _
  have hwin : ∀ i, (h : i < xs.length) → arrEq eq (sl xs i (i + 1)) [sep] = eq xs[i] sep := by
    intro i h; rw [sl_one xs h]; simp [arrEq, List.isEqv]
  have key : ∀ n p, xs.length - p = n → ns ≤ p → (∀ i, ns ≤ i → i < p → i < xs.length →
      arrEq eq (sl xs i (i + 1)) [sep] = false) →
      (∃ s, ns ≤ s ∧ s + 1 ≤ xs.length ∧ arrEq eq (sl xs s (s + 1)) [sep] = true ∧
        (∀ i, ns ≤ i → i < s → arrEq eq (sl xs i (i + 1)) [sep] = false) ∧
        elemLoop eq xs sep ⟨ns, false⟩ p = some (sl xs ns s, ⟨s + 1, false⟩)) ∨
      ((∀ i, ns ≤ i → i + 1 ≤ xs.length → arrEq eq (sl xs i (i + 1)) [sep] = false) ∧
        elemLoop eq xs sep ⟨ns, false⟩ p = some (sl xs ns xs.length, ⟨ns, true⟩)) := by
    intro n
    induction n with
    | zero =>
      intro p hp hns hpre
      right
      refine ⟨fun i h1 h2 => hpre i h1 (by omega) (by omega), ?_⟩
      rw [elemLoop, dif_pos (by omega)]
    | succ n ih =>
      intro p hp hns hpre
      rw [elemLoop, dif_neg (by omega)]
      have hlt : p < xs.length := by omega
      cases he : eq xs[p] sep with
      | true =>
        left
        refine ⟨p, hns, by omega, by rw [hwin p hlt]; exact he, fun i h1 h2 => hpre i h1 h2 (by omega), ?_⟩
        simp
      | false =>
        simp only [Bool.false_eq_true, if_false]
        apply ih (p + 1) (by omega) (by omega)
        intro i h1 h2 h3
        by_cases hip : i = p
        · subst hip; rw [hwin i h3]; exact he
        · exact hpre i h1 (by omega) h3
  have := key _ ns rfl (by omega) (by intro i h1 h2; omega)
  simpa [elemNext] using this

theorem arr_nextSpec (eq : α → α → Bool) (xs sep : List α) :
    NextSpec (fun win => arrEq eq win sep) sep.length xs (arrNext eq xs sep) := by
  refine ⟨fun ns => by simp [arrNext], ?_⟩
  intro ns hns
  unfold arrNext
  simp only [Bool.false_eq_true, if_false]
  by_cases hshort : (sep.length : Int) > (xs.length : Int) - ns
  · rw [if_pos hshort]
    right
    exact ⟨fun i h1 h2 => by omega, rfl⟩
  · rw [if_neg hshort]
    have key : ∀ n p, (xs.length - sep.length) + 1 - p = n → ns ≤ p → (∀ i, ns ≤ i → i < p →
        i + sep.length ≤ xs.length → arrEq eq (sl xs i (i + sep.length)) sep = false) →
        (∃ s, ns ≤ s ∧ s + sep.length ≤ xs.length ∧ arrEq eq (sl xs s (s + sep.length)) sep = true ∧
          (∀ i, ns ≤ i → i < s → arrEq eq (sl xs i (i + sep.length)) sep = false) ∧
          arrLoop eq xs sep ⟨ns, false⟩ (xs.length - sep.length) p = some (sl xs ns s, ⟨s + sep.length, false⟩)) ∨
        ((∀ i, ns ≤ i → i + sep.length ≤ xs.length → arrEq eq (sl xs i (i + sep.length)) sep = false) ∧
          arrLoop eq xs sep ⟨ns, false⟩ (xs.length - sep.length) p = some (sl xs ns xs.length, ⟨ns, true⟩)) := by
      intro n
      induction n with
      | zero =>
        intro p hp hns hpre
        right
        refine ⟨fun i h1 h2 => hpre i h1 (by omega) (by omega), ?_⟩
        rw [arrLoop, if_pos (by omega)]
      | succ n ih =>
        intro p hp hns hpre
        rw [arrLoop, if_neg (by omega)]
        cases he : arrEq eq (sl xs p (p + sep.length)) sep with
        | true =>
          left
          refine ⟨p, hns, by omega, he, fun i h1 h2 => hpre i h1 h2 (by omega), ?_⟩
          simp
        | false =>
          simp only [Bool.false_eq_true, if_false]
          apply ih (p + 1) (by omega) (by omega)
          intro i h1 h2 h3
          by_cases hip : i = p
          · subst hip; exact he
          · exact hpre i h1 (by omega) h3
    exact key _ ns rfl (by omega) (by intro i h1 h2; omega)

theorem str_nextSpec {χ : Type} [DecidableEq χ] (gs : List (List χ)) (t : List χ) (w : Nat) :
    NextSpec (fun win => decide (win.flatten = t)) w gs (strNext gs t w) := by
  refine ⟨fun ns => by simp [strNext], ?_⟩
  intro ns hns
  unfold strNext
  simp only [Bool.false_eq_true, if_false]
  by_cases hshort : w > gs.length - ns
  · rw [if_pos hshort]
    right
    exact ⟨fun i h1 h2 => by omega, rfl⟩
  · rw [if_neg hshort]
    have key : ∀ n p, (gs.length - w) + 1 - p = n → ns ≤ p → (∀ i, ns ≤ i → i < p →
        i + w ≤ gs.length → (sl gs i (i + w)).flatten ≠ t) →
        (∃ s, ns ≤ s ∧ s + w ≤ gs.length ∧ (sl gs s (s + w)).flatten = t ∧
          (∀ i, ns ≤ i → i < s → (sl gs i (i + w)).flatten ≠ t) ∧
          strSepLoop gs t w (gs.length - w) p = some s) ∨
        ((∀ i, ns ≤ i → i + w ≤ gs.length → (sl gs i (i + w)).flatten ≠ t) ∧
          strSepLoop gs t w (gs.length - w) p = none) := by
      intro n
      induction n with
      | zero =>
        intro p hp hns hpre
        right
        refine ⟨fun i h1 h2 => hpre i h1 (by omega) (by omega), ?_⟩
        rw [strSepLoop, if_pos (by omega)]
      | succ n ih =>
        intro p hp hns hpre
        rw [strSepLoop, if_neg (by omega)]
        by_cases he : (sl gs p (p + w)).flatten = t
        · left
          refine ⟨p, hns, by omega, he, fun i h1 h2 => hpre i h1 h2 (by omega), ?_⟩
          rw [if_pos he]
        · rw [if_neg he]
          apply ih (p + 1) (by omega) (by omega)
          intro i h1 h2 h3
          by_cases hip : i = p
          · subst hip; exact he
          · exact hpre i h1 (by omega) h3
    rcases key _ ns rfl (by omega) (by intro i h1 h2; omega) with ⟨s, h1, h2, h3, h4, h5⟩ | ⟨h1, h2⟩
    · left
      exact ⟨s, h1, h2, by simpa using h3, fun i a b => by simpa using h4 i a b, by rw [h5]⟩
    · right
      exact ⟨fun i a b => by simpa using h1 i a b, by rw [h2]⟩

/-- Specification of splitting: cut at the leftmost window accepted by `P`, then continue after it. -/
inductive SplitRel (P : List α → Bool) (w : Nat) : List α → List (List α) → Prop
  | last (xs : List α) : (∀ i, i + w ≤ xs.length → P ((xs.drop i).take w) = false) → SplitRel P w xs [xs]
  | cut (p s rest : List α) (ps : List (List α)) : s.length = w → P s = true →
      (∀ i, i < p.length → P (((p ++ s ++ rest).drop i).take w) = false) → SplitRel P w rest ps →
      SplitRel P w (p ++ s ++ rest) (p :: ps)

theorem sl_drop_take (xs : List α) (ns i w : Nat) : ((xs.drop ns).drop i).take w = sl xs (ns + i) (ns + i + w) := by
  unfold sl
  rw [List.drop_drop, List.drop_take]
  congr 1; omega

theorem collect_spec {P : List α → Bool} {w : Nat} (hw : 0 < w) {xs : List α}
    {next : SplitIt → Option (List α × SplitIt)} (N : NextSpec P w xs next) :
    ∀ n ns, xs.length - ns = n → ns ≤ xs.length →
      ∃ ps, collect next ⟨ns, false⟩ = some ps ∧ SplitRel P w (xs.drop ns) ps := by
  intro n
  induction n using Nat.strongRecOn with
  | ind n ih =>
    intro ns hn hns
    rcases N.step ns hns with ⟨s, h1, h2, h3, h4, h5⟩ | ⟨h1, h2⟩
    · obtain ⟨ps, hps, hrel⟩ := ih (xs.length - (s + w)) (by omega) (s + w) rfl (by omega)
      refine ⟨sl xs ns s :: ps, ?_, ?_⟩
      · rw [collect, h5]
        simp only [hps]; rfl
      · have e : xs.drop ns = sl xs ns s ++ sl xs s (s + w) ++ xs.drop (s + w) := by
          rw [sl_append xs h1 (by omega)]
          have := split_range xs (show ns ≤ s + w by omega)
          conv_lhs => rw [this]
          rw [List.append_assoc, List.drop_append_of_le_length (by simp; omega)]
          rw [List.drop_eq_nil_of_le (by simp; omega)]
          simp
        have hlen : (sl xs ns s).length = s - ns := by rw [sl_length]; omega
        have hall : ∀ i, i < (sl xs ns s).length →
            P (((sl xs ns s ++ sl xs s (s + w) ++ xs.drop (s + w)).drop i).take w) = false := by
          intro i hi
          rw [← e, sl_drop_take]
          exact h4 (ns + i) (by omega) (by omega)
        rw [e]
        exact SplitRel.cut _ _ _ _ (by rw [sl_length]; omega) h3 hall hrel
    · refine ⟨[xs.drop ns], ?_, ?_⟩
      · have hl : sl xs ns xs.length = xs.drop ns := by unfold sl; rw [List.take_length]
        rw [collect, h2, hl]
        have : collect next ⟨ns, true⟩ = some [] := by rw [collect, N.fin]
        simp only [this]; rfl
      · apply SplitRel.last
        intro i hi
        rw [sl_drop_take]
        simp only [List.length_drop] at hi
        exact h1 (ns + i) (by omega) (by omega)

theorem joinLoop_eq (sep : List α) (es : List (List α)) : ∀ acc,
    joinLoop (· ++ ·) sep es acc = acc ++ (es.map (sep ++ ·)).flatten := by
  induction es with
  | nil => intro acc; simp [joinLoop]
  | cons e es ih => intro acc; rw [joinLoop, ih]; simp

theorem join_cons (sep p : List α) {ps : List (List α)} (h : ps ≠ []) :
    join (· ++ ·) [] (p :: ps) sep = p ++ sep ++ join (· ++ ·) [] ps sep := by
  cases ps with
  | nil => exact absurd rfl h
  | cons q qs => simp [join, joinLoop_eq]

theorem SplitRel.ne_nil {P : List α → Bool} {w : Nat} {xs : List α} {ps : List (List α)} (h : SplitRel P w xs ps) :
    ps ≠ [] := by cases h <;> simp

end Ferlium.Algo
