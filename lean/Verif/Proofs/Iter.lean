import Verif.Model.Iter
import Mathlib.Tactic

/-! Lemmas about iterator state machines. -/
namespace Ferlium.Iter

variable {σ τ α β γ : Type}

/-- The results of calling `next` `n` times. -/
def pulls (step : Step σ α) : Nat → σ → Option (List (Option α))
  | 0, _ => some []
  | n + 1, s =>
    match step s with
    | none => none
    | some (r, s) => (pulls step n s).map (r :: ·)

/-- The iterator yields exactly the list `xs` and then `None` for ever. -/
def Behaves (step : Step σ α) (s : σ) (xs : List α) : Prop :=
  ∀ n, pulls step n s = some ((List.range n).map (fun i => xs[i]?))

theorem range_succ_map {β : Type} (f : Nat → β) (n : Nat) :
    (List.range (n + 1)).map f = f 0 :: (List.range n).map (fun i => f (i + 1)) := by
  rw [List.range_succ_eq_map, List.map_cons, List.map_map]; rfl

theorem behaves_nil_iff {step : Step σ α} {s : σ} :
    Behaves step s [] ↔ ∃ s', step s = some (none, s') ∧ Behaves step s' [] := by
  constructor
  · intro h
    have h1 := h 1
    rw [pulls] at h1
    rcases hs : step s with _ | ⟨r, s'⟩
    · rw [hs] at h1; simp at h1
    · rw [hs] at h1
      simp only [pulls, Option.map_some, range_succ_map] at h1
      have hr : r = none := by simpa using h1
      subst hr
      refine ⟨s', rfl, fun n => ?_⟩
      have hn := h (n + 1)
      rw [pulls, hs, range_succ_map] at hn
      rcases hp : pulls step n s' with _ | l
      · simp [hp] at hn
      · simp [hp] at hn; simp [hn]
  · rintro ⟨s', hs, hb⟩ n
    cases n with
    | zero => rfl
    | succ n => rw [pulls, hs]; simp only [hb n, range_succ_map]; simp

theorem behaves_cons_iff {step : Step σ α} {s : σ} {x : α} {xs : List α} :
    Behaves step s (x :: xs) ↔ ∃ s', step s = some (some x, s') ∧ Behaves step s' xs := by
  constructor
  · intro h
    have h1 := h 1
    rw [pulls] at h1
    rcases hs : step s with _ | ⟨r, s'⟩
    · rw [hs] at h1; simp at h1
    · rw [hs] at h1
      simp only [pulls, Option.map_some, range_succ_map] at h1
      have hr : r = some x := by simpa using h1
      subst hr
      refine ⟨s', rfl, fun n => ?_⟩
      have hn := h (n + 1)
      rw [pulls, hs, range_succ_map] at hn
      rcases hp : pulls step n s' with _ | l
      · simp [hp] at hn
      · simp [hp] at hn; simp [hn]
  · rintro ⟨s', hs, hb⟩ n
    cases n with
    | zero => rfl
    | succ n => rw [pulls, hs]; simp only [hb n, range_succ_map]; simp

/-- To prove `Behaves` it is enough to have a relation closed under stepping. -/
theorem behaves_of_rel {step : Step σ α} (R : σ → List α → Prop)
    (hnil : ∀ s, R s [] → ∃ s', step s = some (none, s') ∧ R s' [])
    (hcons : ∀ s x xs, R s (x :: xs) → ∃ s', step s = some (some x, s') ∧ R s' xs) :
    ∀ s xs, R s xs → Behaves step s xs := by
  intro s xs h n
  induction n generalizing s xs with
  | zero => rfl
  | succ n ih =>
    rw [pulls, range_succ_map]
    cases xs with
    | nil =>
      obtain ⟨s', h1, h2⟩ := hnil s h
      rw [h1]; simp only [ih s' [] h2]; simp
    | cons x xs =>
      obtain ⟨s', h1, h2⟩ := hcons s x xs h
      rw [h1]; simp only [ih s' xs h2]; simp

theorem behaves_map {step : Step σ α} {s : σ} {xs : List α} (f : α → β) (h : Behaves step s xs) :
    Behaves (mapNext step f) s (xs.map f) := by
  refine behaves_of_rel (fun s ys => ∃ xs, Behaves step s xs ∧ ys = xs.map f) ?_ ?_ s _ ⟨xs, h, rfl⟩
  · rintro s ⟨xs, hb, he⟩
    have : xs = [] := by cases xs <;> simp_all
    subst this
    obtain ⟨s', h1, h2⟩ := behaves_nil_iff.mp hb
    exact ⟨s', by simp [mapNext, h1], [], h2, rfl⟩
  · rintro s y ys ⟨xs, hb, he⟩
    cases xs with
    | nil => simp at he
    | cons x xs =>
      simp only [List.map_cons, List.cons.injEq] at he
      obtain ⟨rfl, rfl⟩ := he
      obtain ⟨s', h1, h2⟩ := behaves_cons_iff.mp hb
      exact ⟨s', by simp [mapNext, h1], xs, h2, rfl⟩

theorem filterMapNext_behaves {step : Step σ α} (f : α → Option β) :
    ∀ (xs : List α) (s : σ), Behaves step s xs →
      match xs.filterMap f with
      | [] => ∃ s', filterMapNext step f s = some (none, s') ∧ Behaves step s' []
      | y :: ys => ∃ s' xs', filterMapNext step f s = some (some y, s') ∧ Behaves step s' xs' ∧ ys = xs'.filterMap f := by
  intro xs
  induction xs with
  | nil =>
    intro s hb
    obtain ⟨s', h1, h2⟩ := behaves_nil_iff.mp hb
    exact ⟨s', by rw [filterMapNext, h1], h2⟩
  | cons x xs ih =>
    intro s hb
    obtain ⟨s', h1, h2⟩ := behaves_cons_iff.mp hb
    cases hf : f x with
    | some y =>
      rw [List.filterMap_cons_some hf]
      exact ⟨s', xs, by rw [filterMapNext, h1]; simp [hf], h2, rfl⟩
    | none =>
      rw [List.filterMap_cons_none hf]
      have e : filterMapNext step f s = filterMapNext step f s' := by rw [filterMapNext, h1]; simp [hf]
      rw [e]
      exact ih s' h2

theorem behaves_filterMap {step : Step σ α} {s : σ} {xs : List α} (f : α → Option β) (h : Behaves step s xs) :
    Behaves (filterMapNext step f) s (xs.filterMap f) := by
  refine behaves_of_rel (fun s ys => ∃ xs, Behaves step s xs ∧ ys = xs.filterMap f) ?_ ?_ s _ ⟨xs, h, rfl⟩
  · rintro s ⟨xs, hb, he⟩
    have := filterMapNext_behaves f xs s hb
    rw [← he] at this
    obtain ⟨s', h1, h2⟩ := this
    exact ⟨s', h1, [], h2, rfl⟩
  · rintro s y ys ⟨xs, hb, he⟩
    have := filterMapNext_behaves f xs s hb
    rw [← he] at this
    obtain ⟨s', xs', h1, h2, h3⟩ := this
    exact ⟨s', h1, xs', h2, h3⟩

theorem filterNext_behaves {step : Step σ α} (p : α → Bool) :
    ∀ (xs : List α) (s : σ), Behaves step s xs →
      match xs.filter p with
      | [] => ∃ s', filterNext step p s = some (none, s') ∧ Behaves step s' []
      | y :: ys => ∃ s' xs', filterNext step p s = some (some y, s') ∧ Behaves step s' xs' ∧ ys = xs'.filter p := by
  intro xs
  induction xs with
  | nil =>
    intro s hb
    obtain ⟨s', h1, h2⟩ := behaves_nil_iff.mp hb
    exact ⟨s', by rw [filterNext, h1], h2⟩
  | cons x xs ih =>
    intro s hb
    obtain ⟨s', h1, h2⟩ := behaves_cons_iff.mp hb
    cases hf : p x with
    | true =>
      rw [List.filter_cons_of_pos hf]
      exact ⟨s', xs, by rw [filterNext, h1]; simp [hf], h2, rfl⟩
    | false =>
      rw [List.filter_cons_of_neg (by simp [hf])]
      have e : filterNext step p s = filterNext step p s' := by rw [filterNext, h1]; simp [hf]
      rw [e]
      exact ih s' h2

theorem behaves_filter {step : Step σ α} {s : σ} {xs : List α} (p : α → Bool) (h : Behaves step s xs) :
    Behaves (filterNext step p) s (xs.filter p) := by
  refine behaves_of_rel (fun s ys => ∃ xs, Behaves step s xs ∧ ys = xs.filter p) ?_ ?_ s _ ⟨xs, h, rfl⟩
  · rintro s ⟨xs, hb, he⟩
    have := filterNext_behaves p xs s hb
    rw [← he] at this
    obtain ⟨s', h1, h2⟩ := this
    exact ⟨s', h1, [], h2, rfl⟩
  · rintro s y ys ⟨xs, hb, he⟩
    have := filterNext_behaves p xs s hb
    rw [← he] at this
    obtain ⟨s', xs', h1, h2, h3⟩ := this
    exact ⟨s', h1, xs', h2, h3⟩

theorem behaves_zip {l : Step σ α} {r : Step τ β} {s : σ} {t : τ} {xs : List α} {ys : List β}
    (hl : Behaves l s xs) (hr : Behaves r t ys) : Behaves (zipNext l r) (s, t) (xs.zip ys) := by
  refine behaves_of_rel (fun s zs => ∃ xs ys, Behaves l s.1 xs ∧ Behaves r s.2 ys ∧ zs = xs.zip ys) ?_ ?_ _ _
    ⟨xs, ys, hl, hr, rfl⟩
  · rintro ⟨s, t⟩ ⟨xs, ys, hb, hc, he⟩
    cases xs with
    | nil =>
      obtain ⟨s', h1, h2⟩ := behaves_nil_iff.mp hb
      exact ⟨(s', t), by simp only at h1; simp [zipNext, h1], [], ys, h2, hc, rfl⟩
    | cons x xs =>
      cases ys with
      | cons y ys => simp at he
      | nil =>
        obtain ⟨s', h1, h2⟩ := behaves_cons_iff.mp hb
        obtain ⟨t', h3, h4⟩ := behaves_nil_iff.mp hc
        exact ⟨(s', t'), by simp only at h1 h3; simp [zipNext, h1, h3], xs, [], h2, h4, by simp⟩
  · rintro ⟨s, t⟩ z zs ⟨xs, ys, hb, hc, he⟩
    cases xs with
    | nil => simp at he
    | cons x xs =>
      cases ys with
      | nil => simp at he
      | cons y ys =>
        simp only [List.zip_cons_cons, List.cons.injEq] at he
        obtain ⟨rfl, rfl⟩ := he
        obtain ⟨s', h1, h2⟩ := behaves_cons_iff.mp hb
        obtain ⟨t', h3, h4⟩ := behaves_cons_iff.mp hc
        exact ⟨(s', t'), by simp only at h1 h3; simp [zipNext, h1, h3], xs, ys, h2, h4, rfl⟩

/-- Items paired with consecutive indices from `i`. -/
def indexed (i : Int) : List α → List (Int × α)
  | [] => []
  | x :: xs => (i, x) :: indexed (i + 1) xs

theorem behaves_enum {step : Step σ α} {s : σ} {xs : List α} (i : Int) (h : Behaves step s xs) :
    Behaves (enumNext step) (s, i) (indexed i xs) := by
  refine behaves_of_rel (fun s ys => ∃ xs, Behaves step s.1 xs ∧ ys = indexed s.2 xs) ?_ ?_ _ _ ⟨xs, h, rfl⟩
  · rintro ⟨s, i⟩ ⟨xs, hb, he⟩
    have : xs = [] := by cases xs <;> simp_all [indexed]
    subst this
    obtain ⟨s', h1, h2⟩ := behaves_nil_iff.mp hb
    exact ⟨(s', i), by simp only at h1; simp [enumNext, h1], [], h2, rfl⟩
  · rintro ⟨s, i⟩ y ys ⟨xs, hb, he⟩
    cases xs with
    | nil => simp [indexed] at he
    | cons x xs =>
      simp only [indexed, List.cons.injEq] at he
      obtain ⟨rfl, rfl⟩ := he
      obtain ⟨s', h1, h2⟩ := behaves_cons_iff.mp hb
      exact ⟨(s', i + 1), by simp only at h1; simp [enumNext, h1], xs, h2, rfl⟩

theorem behaves_take {step : Step σ α} {s : σ} {xs : List α} (n : Int) (h : Behaves step s xs) :
    Behaves (takeNext step) (s, n) (xs.take n.toNat) := by
  refine behaves_of_rel (fun s ys => ∃ xs, Behaves step s.1 xs ∧ ys = xs.take s.2.toNat) ?_ ?_ _ _ ⟨xs, h, rfl⟩
  · rintro ⟨s, n⟩ ⟨xs, hb, he⟩
    by_cases hn : n ≤ 0
    · exact ⟨(s, n), by simp [takeNext, hn], xs, hb, he⟩
    · have : xs = [] := by
        cases xs with
        | nil => rfl
        | cons x xs =>
          obtain ⟨m, hm⟩ : ∃ m, n.toNat = m + 1 := ⟨n.toNat - 1, by omega⟩
          simp [hm] at he
      subst this
      obtain ⟨s', h1, h2⟩ := behaves_nil_iff.mp hb
      exact ⟨(s', n), by simp only at h1; simp [takeNext, h1, hn], [], h2, by simp⟩
  · rintro ⟨s, n⟩ y ys ⟨xs, hb, he⟩
    by_cases hn : n ≤ 0
    · have : n.toNat = 0 := by omega
      simp [this] at he
    · cases xs with
      | nil => simp at he
      | cons x xs =>
        obtain ⟨m, hm⟩ : ∃ m, n.toNat = m + 1 := ⟨n.toNat - 1, by omega⟩
        simp only [hm, List.take_succ_cons, List.cons.injEq] at he
        obtain ⟨rfl, rfl⟩ := he
        obtain ⟨s', h1, h2⟩ := behaves_cons_iff.mp hb
        refine ⟨(s', n - 1), by simp only at h1; simp [takeNext, h1, hn], xs, h2, ?_⟩
        congr 1; simp only []; omega

theorem skipNext_behaves {step : Step σ α} :
    ∀ (xs : List α) (s : σ) (n : Int), Behaves step s xs →
      match xs.drop n.toNat with
      | [] => ∃ s' n', skipNext step (s, n) = some (none, (s', n')) ∧ Behaves step s' []
      | y :: ys => ∃ s' n', skipNext step (s, n) = some (some y, (s', n')) ∧ Behaves step s' ys ∧ n' ≤ 0 := by
  intro xs
  induction xs with
  | nil =>
    intro s n hb
    obtain ⟨s', h1, h2⟩ := behaves_nil_iff.mp hb
    simp only [List.drop_nil]
    exact ⟨s', n, by rw [skipNext, h1], h2⟩
  | cons x xs ih =>
    intro s n hb
    obtain ⟨s', h1, h2⟩ := behaves_cons_iff.mp hb
    by_cases hn : n > 0
    · obtain ⟨m, hm⟩ : ∃ m, n.toNat = m + 1 := ⟨n.toNat - 1, by omega⟩
      have e : skipNext step (s, n) = skipNext step (s', n - 1) := by rw [skipNext, h1]; simp [hn]
      have := ih s' (n - 1) h2
      rw [show (n - 1).toNat = m by omega] at this
      rw [hm, List.drop_succ_cons, e]
      exact this
    · rw [show n.toNat = 0 by omega, List.drop_zero]
      exact ⟨s', n, by rw [skipNext, h1]; simp [hn], h2, by omega⟩

theorem behaves_skip {step : Step σ α} {s : σ} {xs : List α} (n : Int) (h : Behaves step s xs) :
    Behaves (skipNext step) (s, n) (xs.drop n.toNat) := by
  refine behaves_of_rel (fun s ys => ∃ xs, Behaves step s.1 xs ∧ ys = xs.drop s.2.toNat) ?_ ?_ _ _ ⟨xs, h, rfl⟩
  · rintro ⟨s, n⟩ ⟨xs, hb, he⟩
    have := skipNext_behaves xs s n hb
    rw [← he] at this
    obtain ⟨s', n', h1, h2⟩ := this
    exact ⟨(s', n'), h1, [], h2, by simp⟩
  · rintro ⟨s, n⟩ y ys ⟨xs, hb, he⟩
    have := skipNext_behaves xs s n hb
    rw [← he] at this
    obtain ⟨s', n', h1, h2, h3⟩ := this
    exact ⟨(s', n'), h1, ys, h2, by rw [show (s', n').2.toNat = 0 by simp only []; omega]; rfl⟩

theorem behaves_chain {l : Step σ α} {r : Step τ α} {s : σ} {t : τ} {xs ys : List α}
    (hl : Behaves l s xs) (hr : Behaves r t ys) : Behaves (chainNext l r) (s, t, false) (xs ++ ys) := by
  refine behaves_of_rel (fun s zs => (s.2.2 = true ∧ Behaves r s.2.1 zs) ∨
    (s.2.2 = false ∧ ∃ xs ys, Behaves l s.1 xs ∧ Behaves r s.2.1 ys ∧ zs = xs ++ ys)) ?_ ?_ _ _
    (.inr ⟨rfl, xs, ys, hl, hr, rfl⟩)
  · rintro ⟨s, t, d⟩ (⟨hd, hb⟩ | ⟨hd, xs, ys, hb, hc, he⟩)
    · obtain ⟨t', h1, h2⟩ := behaves_nil_iff.mp hb
      simp only at hd h1; subst hd
      exact ⟨(s, t', true), by simp [chainNext, h1], .inl ⟨rfl, h2⟩⟩
    · simp only at hd; subst hd
      obtain ⟨hx, hy⟩ := List.append_eq_nil_iff.mp he.symm
      subst hx hy
      obtain ⟨s', h1, h2⟩ := behaves_nil_iff.mp hb
      obtain ⟨t', h3, h4⟩ := behaves_nil_iff.mp hc
      simp only at h1 h3
      exact ⟨(s', t', true), by simp [chainNext, h1, h3], .inl ⟨rfl, h4⟩⟩
  · rintro ⟨s, t, d⟩ z zs (⟨hd, hb⟩ | ⟨hd, xs, ys, hb, hc, he⟩)
    · obtain ⟨t', h1, h2⟩ := behaves_cons_iff.mp hb
      simp only at hd h1; subst hd
      exact ⟨(s, t', true), by simp [chainNext, h1], .inl ⟨rfl, h2⟩⟩
    · simp only at hd; subst hd
      cases xs with
      | nil =>
        simp only [List.nil_append] at he
        subst he
        obtain ⟨s', h1, h2⟩ := behaves_nil_iff.mp hb
        obtain ⟨t', h3, h4⟩ := behaves_cons_iff.mp hc
        simp only at h1 h3
        exact ⟨(s', t', true), by simp [chainNext, h1, h3], .inl ⟨rfl, h4⟩⟩
      | cons x xs =>
        simp only [List.cons_append, List.cons.injEq] at he
        obtain ⟨rfl, rfl⟩ := he
        obtain ⟨s', h1, h2⟩ := behaves_cons_iff.mp hb
        simp only at h1
        exact ⟨(s', t, false), by simp [chainNext, h1], .inr ⟨rfl, xs, ys, h2, hc, rfl⟩⟩

/-! ### Consumers -/

theorem fold_eq {step : Step σ α} (f : β → α → β) (xs : List α) : ∀ (s : σ) (acc : β), Behaves step s xs →
    fold step f s acc = some (xs.foldl f acc) := by
  induction xs with
  | nil =>
    intro s acc hb
    obtain ⟨s', h1, _⟩ := behaves_nil_iff.mp hb
    rw [fold, h1]; rfl
  | cons x xs ih =>
    intro s acc hb
    obtain ⟨s', h1, h2⟩ := behaves_cons_iff.mp hb
    rw [fold, h1]; exact ih s' _ h2

theorem all_eq {step : Step σ α} (p : α → Bool) (xs : List α) : ∀ (s : σ), Behaves step s xs →
    all step p s = some (xs.all p) := by
  induction xs with
  | nil =>
    intro s hb
    obtain ⟨s', h1, _⟩ := behaves_nil_iff.mp hb
    rw [all, tryFold, h1]; rfl
  | cons x xs ih =>
    intro s hb
    obtain ⟨s', h1, h2⟩ := behaves_cons_iff.mp hb
    rw [all, tryFold, h1]
    have := ih s' h2
    rw [all] at this
    cases hp : p x <;> simp [hp, this]

theorem any_eq {step : Step σ α} (p : α → Bool) (xs : List α) : ∀ (s : σ), Behaves step s xs →
    any step p s = some (xs.any p) := by
  induction xs with
  | nil =>
    intro s hb
    obtain ⟨s', h1, _⟩ := behaves_nil_iff.mp hb
    rw [any, tryFold, h1]; rfl
  | cons x xs ih =>
    intro s hb
    obtain ⟨s', h1, h2⟩ := behaves_cons_iff.mp hb
    rw [any, tryFold, h1]
    have := ih s' h2
    rw [any] at this
    cases hp : p x <;> simp [hp, this]

theorem count_eq {step : Step σ α} (xs : List α) (s : σ) (h : Behaves step s xs) :
    count step s = some xs.length := by
  rw [count, fold_eq _ xs s _ h]
  congr 1
  have : ∀ (ys : List α) (k : Int), ys.foldl (fun sum _ => sum + 1) k = k + ys.length := by
    intro ys
    induction ys with
    | nil => intro k; simp
    | cons y ys ih => intro k; rw [List.foldl_cons, ih]; simp; omega
  rw [this]; simp

theorem find_eq {step : Step σ α} (p : α → Bool) (xs : List α) : ∀ (s : σ), Behaves step s xs →
    find step p s = some (xs.find? p) := by
  induction xs with
  | nil =>
    intro s hb
    obtain ⟨s', h1, _⟩ := behaves_nil_iff.mp hb
    rw [find, h1]; rfl
  | cons x xs ih =>
    intro s hb
    obtain ⟨s', h1, h2⟩ := behaves_cons_iff.mp hb
    rw [find, h1]
    cases hp : p x
    · simp [hp, ih s' h2]
    · simp [hp]

theorem positionFrom_eq {step : Step σ α} (p : α → Bool) (xs : List α) : ∀ (s : σ) (i : Int), Behaves step s xs →
    positionFrom step p s i = some ((xs.findIdx? p).map (fun k : Nat => i + (k : Int))) := by
  induction xs with
  | nil =>
    intro s i hb
    obtain ⟨s', h1, _⟩ := behaves_nil_iff.mp hb
    rw [positionFrom, h1]; rfl
  | cons x xs ih =>
    intro s i hb
    obtain ⟨s', h1, h2⟩ := behaves_cons_iff.mp hb
    rw [positionFrom, h1, List.findIdx?_cons]
    cases hp : p x
    · simp only [hp, Bool.false_eq_true, if_false, ih s' _ h2]
      cases xs.findIdx? p with
      | none => rfl
      | some k => simp; omega
    · simp [hp]

end Ferlium.Iter
