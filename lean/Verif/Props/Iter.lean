import Verif.Proofs.Iter

/-!
Iterators: C07 (adaptors and consumers), C08 (ranges), C16 (min / max / clamp are elsewhere).

The specification of an iterator is `Behaves step s xs`: for every `n`, calling `next` `n` times returns the first `n`
entries of `xs` followed by `None`s (so an exhausted iterator stays exhausted).
-/
namespace Ferlium.Iter.Props
open Ferlium.Iter

variable {σ τ α β γ : Type}

/-! ### C07 -/

/-- An iterator together with its current state. -/
structure Machine (α : Type) where
  σ : Type
  step : Step σ α
  s : σ

/-- Pipelines of adaptors over arbitrary finite sources. -/
inductive Pipe : Type → Type 1 where
  | source {α : Type} (m : Machine α) (xs : List α) (h : Behaves m.step m.s xs) : Pipe α
  | map {α β : Type} (p : Pipe α) (f : α → β) : Pipe β
  | filter {α : Type} (p : Pipe α) (f : α → Bool) : Pipe α
  | filterMap {α β : Type} (p : Pipe α) (f : α → Option β) : Pipe β
  | zip {α β : Type} (p : Pipe α) (q : Pipe β) : Pipe (α × β)
  | enumerate {α : Type} (p : Pipe α) : Pipe (Int × α)
  | take {α : Type} (p : Pipe α) (n : Int) : Pipe α
  | skip {α : Type} (p : Pipe α) (n : Int) : Pipe α
  | chain {α : Type} (p q : Pipe α) : Pipe α

/-- The state machine built by the ferlium adaptors. -/
def Pipe.machine : {α : Type} → Pipe α → Machine α
  | _, .source m _ _ => m
  | _, .map p f => ⟨p.machine.σ, mapNext p.machine.step f, p.machine.s⟩
  | _, .filter p f => ⟨p.machine.σ, filterNext p.machine.step f, p.machine.s⟩
  | _, .filterMap p f => ⟨p.machine.σ, filterMapNext p.machine.step f, p.machine.s⟩
  | _, .zip p q => ⟨p.machine.σ × q.machine.σ, zipNext p.machine.step q.machine.step, (p.machine.s, q.machine.s)⟩
  | _, .enumerate p => ⟨p.machine.σ × Int, enumNext p.machine.step, (p.machine.s, 0)⟩
  | _, .take p n => ⟨p.machine.σ × Int, takeNext p.machine.step, (p.machine.s, n)⟩
  | _, .skip p n => ⟨p.machine.σ × Int, skipNext p.machine.step, (p.machine.s, n)⟩
  | _, .chain p q => ⟨p.machine.σ × q.machine.σ × Bool, chainNext p.machine.step q.machine.step,
      (p.machine.s, q.machine.s, false)⟩

/-- The list each pipeline stands for. -/
def Pipe.items : {α : Type} → Pipe α → List α
  | _, .source _ xs _ => xs
  | _, .map p f => p.items.map f
  | _, .filter p f => p.items.filter f
  | _, .filterMap p f => p.items.filterMap f
  | _, .zip p q => p.items.zip q.items
  | _, .enumerate p => p.items.zipIdx.map (fun x => ((x.2 : Int), x.1))
  | _, .take p n => p.items.take n.toNat
  | _, .skip p n => p.items.drop n.toNat
  | _, .chain p q => p.items ++ q.items

theorem indexed_eq (xs : List α) : ∀ k : Nat, indexed (k : Int) xs = (xs.zipIdx k).map (fun x => ((x.2 : Int), x.1)) := by
  induction xs with
  | nil => intro k; rfl
  | cons x xs ih => intro k; simp only [indexed, List.zipIdx_cons, List.map_cons, ← ih (k + 1)]; rfl

/-- **C07 (adaptors).** Every nesting of `map`, `filter`, `filter_map`, `zip`, `enumerate`, `take`, `skip`, `chain`
over any finite iterators yields exactly the list the list functions give, then `None` for ever; every call returns. -/
theorem C07_adaptors (p : Pipe α) : Behaves p.machine.step p.machine.s p.items := by
  induction p with
  | source m xs h => exact h
  | map p f ih => exact behaves_map f ih
  | filter p f ih => exact behaves_filter f ih
  | filterMap p f ih => exact behaves_filterMap f ih
  | zip p q ihp ihq => exact behaves_zip ihp ihq
  | enumerate p ih =>
    have := behaves_enum 0 ih
    rw [show (0 : Int) = ((0 : Nat) : Int) from rfl, indexed_eq] at this
    exact this
  | take p n ih => exact behaves_take n ih
  | skip p n ih => exact behaves_skip n ih
  | chain p q ihp ihq => exact behaves_chain ihp ihq

/-- A list as a machine (used for the examples): pops its head. -/
def listStep : Step (List α) α
  | [] => some (none, [])
  | x :: xs => some (some x, xs)

theorem listStep_behaves (xs : List α) : Behaves listStep xs xs :=
  behaves_of_rel (fun s ys => s = ys) (fun s h => ⟨[], by rw [h]; rfl, rfl⟩) (fun s x xs h => ⟨xs, by rw [h]; rfl, rfl⟩)
    xs xs rfl

example : (Pipe.enumerate (.filter (.map (.source ⟨_, listStep, [1, 2, 3, 4]⟩ [1, 2, 3, 4] (listStep_behaves _))
    (fun x : Nat => x * x)) (fun x => x % 2 == 0))).items = [(0, 4), (1, 16)] := by decide

/-- **C07 (take on an unbounded source).** `take n` asks its source for at most `n` items: if the source answers the
first `n` calls with the items `xs`, the adaptor yields exactly `xs`, whatever the source would do afterwards. -/
theorem C07_take_prefix (step : Step σ α) (s : σ) (xs : List α)
    (h : pulls step xs.length s = some (xs.map some)) :
    Behaves (takeNext step) (s, (xs.length : Int)) xs := by
  refine behaves_of_rel (fun t ys => t.2 = (ys.length : Int) ∧ pulls step ys.length t.1 = some (ys.map some)) ?_ ?_ _ _
    ⟨rfl, h⟩
  · rintro ⟨s, n⟩ ⟨h1, h2⟩
    simp only [List.length_nil, Nat.cast_zero] at h1
    exact ⟨(s, n), by simp [takeNext, h1], h1, h2⟩
  · rintro ⟨s, n⟩ x xs ⟨h1, h2⟩
    simp only [List.length_cons, pulls] at h1 h2
    rcases hs : step s with _ | ⟨r, s'⟩
    · rw [hs] at h2; simp at h2
    · rw [hs] at h2
      rcases hp : pulls step xs.length s' with _ | l
      · simp [hp] at h2
      · simp only [hp, Option.map_some, Option.some.injEq, List.map_cons, List.cons.injEq] at h2
        obtain ⟨rfl, rfl⟩ := h2
        have hn : ¬ n ≤ 0 := by push_cast at h1; omega
        refine ⟨(s', n - 1), by simp [takeNext, hs, hn], ?_, hp⟩
        simp only; push_cast at h1; omega

example : pulls (fun n : Nat => some (some n, n + 1)) 3 5 = some ([5, 6, 7].map some) := rfl

/-- **C07 (consumers).** On any iterator that yields `xs`, the consumers return what the list functions return. -/
theorem C07_consumers (step : Step σ α) (s : σ) (xs : List α) (h : Behaves step s xs) :
    (∀ {β : Type} (f : β → α → β) (init : β), fold step f s init = some (xs.foldl f init)) ∧
    (∀ p : α → Bool, all step p s = some (xs.all p)) ∧
    (∀ p : α → Bool, any step p s = some (xs.any p)) ∧
    count step s = some (xs.length : Int) ∧
    (∀ (zero : α) (add : α → α → α), sum zero add step s = some (xs.foldl add zero)) ∧
    (∀ p : α → Bool, find step p s = some (xs.find? p)) ∧
    (∀ p : α → Bool, position step p s = some ((xs.findIdx? p).map Int.ofNat)) := by
  refine ⟨fun f init => fold_eq f xs s init h, fun p => all_eq p xs s h, fun p => any_eq p xs s h, count_eq xs s h,
    fun zero add => fold_eq add xs s zero h, fun p => find_eq p xs s h, fun p => ?_⟩
  rw [position, positionFrom_eq p xs s 0 h]
  congr 2; funext k; simp

/-- What is needed of `cmp` for minimum / maximum. -/
structure TotalPreorder (cmp : α → α → Ordering) : Prop where
  swap : ∀ a b, cmp b a = (cmp a b).swap
  trans : ∀ a b c, cmp a b ≠ .gt → cmp b c ≠ .gt → cmp a c ≠ .gt

theorem TotalPreorder.refl {cmp : α → α → Ordering} (T : TotalPreorder cmp) (a : α) : cmp a a ≠ .gt := by
  intro h; have := T.swap a a; rw [h] at this; cases this

theorem foldl_min {cmp : α → α → Ordering} (T : TotalPreorder cmp) (xs : List α) : ∀ first : α,
    xs.foldl (min2 cmp) first ∈ first :: xs ∧ ∀ y ∈ first :: xs, cmp (xs.foldl (min2 cmp) first) y ≠ .gt := by
  induction xs with
  | nil => intro f; simp [T.refl]
  | cons x xs ih =>
    intro f
    rw [List.foldl_cons]
    obtain ⟨h1, h2⟩ := ih (min2 cmp f x)
    have hmem : min2 cmp f x = f ∨ min2 cmp f x = x := by unfold min2; split <;> simp
    have hf : cmp (min2 cmp f x) f ≠ .gt := by
      unfold min2
      split
      · exact T.refl f
      · rename_i hne
        rw [T.swap f x]
        cases h : cmp f x <;> simp_all
    have hx : cmp (min2 cmp f x) x ≠ .gt := by
      unfold min2
      split
      · rename_i he; rw [he]; simp
      · exact T.refl x
    refine ⟨?_, ?_⟩
    · rcases List.mem_cons.mp h1 with h | h
      · rw [h]; rcases hmem with h | h <;> rw [h] <;> simp
      · simp [h]
    · intro y hy
      have hm := h2 _ (List.mem_cons_self)
      rcases List.mem_cons.mp hy with rfl | hy
      · exact T.trans _ _ _ hm hf
      rcases List.mem_cons.mp hy with rfl | hy
      · exact T.trans _ _ _ hm hx
      · exact h2 y (List.mem_cons_of_mem _ hy)

theorem foldl_max {cmp : α → α → Ordering} (T : TotalPreorder cmp) (xs : List α) : ∀ first : α,
    xs.foldl (max2 cmp) first ∈ first :: xs ∧ ∀ y ∈ first :: xs, cmp y (xs.foldl (max2 cmp) first) ≠ .gt := by
  induction xs with
  | nil => intro f; simp [T.refl]
  | cons x xs ih =>
    intro f
    rw [List.foldl_cons]
    obtain ⟨h1, h2⟩ := ih (max2 cmp f x)
    have hmem : max2 cmp f x = f ∨ max2 cmp f x = x := by unfold max2; split <;> simp
    have hf : cmp f (max2 cmp f x) ≠ .gt := by
      unfold max2
      split
      · exact T.refl f
      · assumption
    have hx : cmp x (max2 cmp f x) ≠ .gt := by
      unfold max2
      split
      · rename_i he; rw [T.swap f x, he]; simp
      · exact T.refl x
    refine ⟨?_, ?_⟩
    · rcases List.mem_cons.mp h1 with h | h
      · rw [h]; rcases hmem with h | h <;> rw [h] <;> simp
      · simp [h]
    · intro y hy
      have hm := h2 _ (List.mem_cons_self)
      rcases List.mem_cons.mp hy with rfl | hy
      · exact T.trans _ _ _ hf hm
      rcases List.mem_cons.mp hy with rfl | hy
      · exact T.trans _ _ _ hx hm
      · exact h2 y (List.mem_cons_of_mem _ hy)

/-- **C07 (minimum, maximum).** On an empty iterator both raise the documented panic; on a non-empty one they return
an element of the sequence that is a lower (upper) bound of it, for every total preorder. -/
theorem C07_minimum_maximum {cmp : α → α → Ordering} (T : TotalPreorder cmp) (step : Step σ α) (s : σ) (xs : List α)
    (h : Behaves step s xs) :
    (xs = [] → minimum cmp step s = some .emptyPanic ∧ maximum cmp step s = some .emptyPanic) ∧
    (xs ≠ [] → ∃ lo hi, minimum cmp step s = some (.value lo) ∧ maximum cmp step s = some (.value hi) ∧
      lo ∈ xs ∧ hi ∈ xs ∧ ∀ y ∈ xs, cmp lo y ≠ .gt ∧ cmp y hi ≠ .gt) := by
  cases xs with
  | nil =>
    obtain ⟨s', h1, _⟩ := behaves_nil_iff.mp h
    exact ⟨fun _ => by simp [minimum, maximum, h1], fun h0 => absurd rfl h0⟩
  | cons x xs =>
    obtain ⟨s', h1, h2⟩ := behaves_cons_iff.mp h
    refine ⟨fun h0 => by simp at h0, fun _ => ⟨_, _, ?_, ?_, (foldl_min T xs x).1, (foldl_max T xs x).1, fun y hy =>
      ⟨(foldl_min T xs x).2 y hy, (foldl_max T xs x).2 y hy⟩⟩⟩
    · simp [minimum, h1, fold_eq _ xs s' _ h2]
    · simp [maximum, h1, fold_eq _ xs s' _ h2]

example : TotalPreorder (fun a b : Int => compare a b) := by
  refine ⟨fun a b => ?_, fun a b c => ?_⟩
  · exact (Std.OrientedCmp.eq_swap (cmp := fun a b : Int => compare a b) (a := b) (b := a))
  · simp only [ne_eq, compare_gt_iff_gt]; omega

/-! ### C08 -/

/-- The integers from `a` towards `b` (exclusive), ascending or descending. -/
def towards (a b : Int) : List Int :=
  if a ≤ b then (List.range (b - a).toNat).map (fun i : Nat => a + (i : Int))
  else (List.range (a - b).toNat).map (fun i : Nat => a - (i : Int))

theorem towards_self (a : Int) : towards a a = [] := by simp [towards]

theorem towards_up {a b : Int} (h : a < b) : towards a b = a :: towards (a + 1) b := by
  unfold towards
  rw [if_pos (by omega), if_pos (by omega), show (b - a).toNat = (b - (a + 1)).toNat + 1 by omega, range_succ_map]
  congr 1
  · simp
  · apply List.map_congr_left; intro i _; push_cast; omega

theorem towards_down {a b : Int} (h : b < a) : towards a b = a :: towards (a - 1) b := by
  unfold towards
  rw [if_neg (by omega)]
  by_cases h' : a - 1 ≤ b
  · rw [if_pos h', show (a - b).toNat = 1 by omega, show (b - (a - 1)).toNat = 0 by omega]; simp
  · rw [if_neg h', show (a - b).toNat = (a - 1 - b).toNat + 1 by omega, range_succ_map]
    congr 1
    · simp
    · apply List.map_congr_left; intro i _; push_cast; omega

theorem toInt_bounds (x : BitVec 64) : -2^63 ≤ x.toInt ∧ x.toInt < 2^63 := by
  have h1 := BitVec.le_toInt x
  have h2 := BitVec.toInt_lt (x := x)
  constructor <;> [simpa using h1; simpa using h2]

theorem toInt_succ {x : BitVec 64} (h : x.toInt < 2^63 - 1) : (x + 1#64).toInt = x.toInt + 1 := by
  have hb := toInt_bounds x
  rw [BitVec.toInt_add, show (1#64).toInt = 1 from rfl, Int.bmod_eq_of_le] <;> omega

theorem toInt_pred {x : BitVec 64} (h : -2^63 < x.toInt) : (x - 1#64).toInt = x.toInt - 1 := by
  have hb := toInt_bounds x
  rw [BitVec.toInt_sub, show (1#64).toInt = 1 from rfl, Int.bmod_eq_of_le] <;> omega

theorem behaves_toInt {step : Step σ (BitVec 64)} {s : σ} (R : σ → List Int → Prop)
    (hnil : ∀ s, R s [] → ∃ s', step s = some (none, s') ∧ R s' [])
    (hcons : ∀ s x xs, R s (x :: xs) → ∃ b s', step s = some (some b, s') ∧ b.toInt = x ∧ R s' xs)
    (xs : List Int) (h : R s xs) : ∃ ys, Behaves step s ys ∧ ys.map BitVec.toInt = xs := by
  refine ⟨xs.map (BitVec.ofInt 64), ?_, ?_⟩
  · refine behaves_of_rel (fun s ys => ∃ xs, R s xs ∧ ys = xs.map (BitVec.ofInt 64)) ?_ ?_ s _ ⟨xs, h, rfl⟩
    · rintro s ⟨xs, hR, he⟩
      have : xs = [] := by cases xs <;> simp_all
      subst this
      obtain ⟨s', h1, h2⟩ := hnil s hR
      exact ⟨s', h1, [], h2, rfl⟩
    · rintro s y ys ⟨xs, hR, he⟩
      cases xs with
      | nil => simp at he
      | cons x xs =>
        simp only [List.map_cons, List.cons.injEq] at he
        obtain ⟨rfl, rfl⟩ := he
        obtain ⟨b, s', h1, h2, h3⟩ := hcons s x xs hR
        refine ⟨s', ?_, xs, h3, rfl⟩
        rw [h1, ← h2, BitVec.ofInt_toInt]
  · rw [List.map_map]
    suffices ∀ (xs : List Int) (s : σ), R s xs → xs.map (BitVec.toInt ∘ BitVec.ofInt 64) = xs from this xs s h
    intro xs
    induction xs with
    | nil => intro _ _; rfl
    | cons x xs ih =>
      intro s hR
      obtain ⟨b, s', _, h2, h3⟩ := hcons s x xs hR
      rw [List.map_cons, ih s' h3]
      congr 1
      simp only [Function.comp]
      rw [← h2, BitVec.ofInt_toInt]

/-- **C08 (`start..end`).** For every pair of 64-bit integers the exclusive range yields exactly the integers from
`start` towards `end` (ascending or descending), then stops for ever. -/
theorem C08_range_exclusive (a b : BitVec 64) :
    ∃ ys, Behaves rangeNext (rangeIter a b) ys ∧ ys.map BitVec.toInt = towards a.toInt b.toInt := by
  refine behaves_toInt (fun it xs => it.start = a ∧ it.stop = b ∧ xs = towards it.next.toInt b.toInt ∧
    (a.toInt ≤ b.toInt → it.next.toInt ≤ b.toInt) ∧ (b.toInt < a.toInt → b.toInt ≤ it.next.toInt)) ?_ ?_ _
    ⟨rfl, rfl, rfl, fun h => h, fun h => le_of_lt h⟩
  · rintro ⟨s, e, n⟩ ⟨rfl, rfl, he, h1, h2⟩
    simp only at he h1 h2
    have hn : n.toInt = e.toInt := by
      rcases lt_trichotomy n.toInt e.toInt with h | h | h
      · rw [towards_up h] at he; simp at he
      · exact h
      · rw [towards_down h] at he; simp at he
    refine ⟨⟨s, e, n⟩, ?_, rfl, rfl, he, h1, h2⟩
    simp [rangeNext, BitVec.slt, BitVec.sle, hn]
  · rintro ⟨s, e, n⟩ x xs ⟨rfl, rfl, he, h1, h2⟩
    simp only at he h1 h2
    by_cases hle : s.toInt ≤ e.toInt
    · have hlt : n.toInt < e.toInt := by
        rcases lt_or_eq_of_le (h1 hle) with h | h
        · exact h
        · rw [h, towards_self] at he; simp at he
      rw [towards_up hlt] at he
      simp only [List.cons.injEq] at he
      have hb := toInt_bounds e
      have hs := toInt_succ (x := n) (by omega)
      refine ⟨n, ⟨s, e, n + 1#64⟩, ?_, he.1.symm, rfl, rfl, ?_, ?_, ?_⟩
      · simp [rangeNext, BitVec.slt, BitVec.sle, hle, hlt]
      · simp only [hs]; exact he.2
      · intro _; simp only [hs]; omega
      · intro h; simp only at h; omega
    · have hlt : e.toInt < n.toInt := by
        rcases lt_or_eq_of_le (h2 (by omega)) with h | h
        · exact h
        · rw [← h, towards_self] at he; simp at he
      rw [towards_down hlt] at he
      simp only [List.cons.injEq] at he
      have hb := toInt_bounds e
      have hs := toInt_pred (x := n) (by omega)
      refine ⟨n, ⟨s, e, n - 1#64⟩, ?_, he.1.symm, rfl, rfl, ?_, ?_, ?_⟩
      · simp [rangeNext, BitVec.slt, BitVec.sle, hle, hlt]
      · simp only [hs]; exact he.2
      · intro h; simp only at h; omega
      · intro _; simp only [hs]; omega

/-- The value one step beyond `b` in the direction from `a`. -/
def beyond (a b : Int) : Int := if a ≤ b then b + 1 else b - 1

/-- **C08 (`start..=end`), partial.** For every pair of 64-bit integers whose end is not the extreme integer in the
direction of travel, the inclusive range yields exactly the integers from `start` to `end` inclusive, then stops for
ever.  Missing: ranges ending at the extreme integer, where the claim is false (`C08_inclusive_extreme_violated`). -/
theorem C08_range_inclusive_partial (a b : BitVec 64) (hup : a.toInt ≤ b.toInt → b.toInt ≠ 2^63 - 1)
    (hdown : b.toInt < a.toInt → b.toInt ≠ -2^63) :
    ∃ ys, Behaves rangeInclNext (rangeIter a b) ys ∧
      ys.map BitVec.toInt = towards a.toInt (beyond a.toInt b.toInt) := by
  have hbb := toInt_bounds b
  refine behaves_toInt (fun it xs => it.start = a ∧ it.stop = b ∧ xs = towards it.next.toInt (beyond a.toInt b.toInt) ∧
    (a.toInt ≤ b.toInt → it.next.toInt ≤ b.toInt + 1) ∧ (b.toInt < a.toInt → b.toInt - 1 ≤ it.next.toInt)) ?_ ?_ _
    ⟨rfl, rfl, rfl, fun h => by simp only [rangeIter]; omega, fun h => by simp only [rangeIter]; omega⟩
  · rintro ⟨s, e, n⟩ ⟨rfl, rfl, he, h1, h2⟩
    simp only at he h1 h2 hup hdown hbb
    have hn : n.toInt = beyond s.toInt e.toInt := by
      rcases lt_trichotomy n.toInt (beyond s.toInt e.toInt) with h | h | h
      · rw [towards_up h] at he; simp at he
      · exact h
      · rw [towards_down h] at he; simp at he
    refine ⟨⟨s, e, n⟩, ?_, rfl, rfl, he, h1, h2⟩
    by_cases hle : s.toInt ≤ e.toInt
    · simp [beyond, hle] at hn
      simp [rangeInclNext, BitVec.sle, hle, hn]
    · simp [beyond, hle] at hn
      simp [rangeInclNext, BitVec.sle, hle, hn]
  · rintro ⟨s, e, n⟩ x xs ⟨rfl, rfl, he, h1, h2⟩
    simp only at he h1 h2 hup hdown hbb
    by_cases hle : s.toInt ≤ e.toInt
    · simp only [beyond, if_pos hle] at he ⊢
      have hlt : n.toInt < e.toInt + 1 := by
        rcases lt_or_eq_of_le (h1 hle) with h | h
        · exact h
        · rw [h, towards_self] at he; simp at he
      rw [towards_up hlt] at he
      simp only [List.cons.injEq] at he
      have hne := hup hle
      have hs := toInt_succ (x := n) (by omega)
      refine ⟨n, ⟨s, e, n + 1#64⟩, ?_, he.1.symm, rfl, rfl, ?_, ?_, ?_⟩
      · have : n.toInt ≤ e.toInt := by omega
        simp [rangeInclNext, BitVec.sle, hle, this]
      · simp only [hs]; exact he.2
      · intro _; simp only [hs]; omega
      · intro h; omega
    · simp only [beyond, if_neg hle] at he ⊢
      have hlt : e.toInt - 1 < n.toInt := by
        rcases lt_or_eq_of_le (h2 (by omega)) with h | h
        · exact h
        · rw [← h, towards_self] at he; simp at he
      rw [towards_down hlt] at he
      simp only [List.cons.injEq] at he
      have hne := hdown (by omega)
      have hs := toInt_pred (x := n) (by omega)
      refine ⟨n, ⟨s, e, n - 1#64⟩, ?_, he.1.symm, rfl, rfl, ?_, ?_, ?_⟩
      · have : e.toInt ≤ n.toInt := by omega
        simp [rangeInclNext, BitVec.sle, hle, this]
      · simp only [hs]; exact he.2
      · intro h; omega
      · intro _; simp only [hs]; omega

/-- **C08 violated.** An inclusive range that ends at the largest integer never ends: every call of `next`, however
many were made before, returns a value (from every start).  Likewise downwards to the smallest integer. -/
theorem C08_inclusive_extreme_violated (a : BitVec 64) (n : Nat) :
    (∃ rs, pulls rangeInclNext n (rangeIter a (BitVec.intMax 64)) = some rs ∧ rs.length = n ∧ ∀ r ∈ rs, r.isSome) ∧
    (a ≠ BitVec.intMin 64 →
      ∃ rs, pulls rangeInclNext n (rangeIter a (BitVec.intMin 64)) = some rs ∧ rs.length = n ∧ ∀ r ∈ rs, r.isSome) := by
  have hmax : (BitVec.intMax 64).toInt = 2^63 - 1 := by decide
  have hmin : (BitVec.intMin 64).toInt = -2^63 := by decide
  have ha := toInt_bounds a
  constructor
  · have key : ∀ n (x : BitVec 64), ∃ rs, pulls rangeInclNext n ⟨a, BitVec.intMax 64, x⟩ = some rs ∧ rs.length = n ∧
        ∀ r ∈ rs, r.isSome := by
      intro n
      induction n with
      | zero => intro x; exact ⟨[], rfl, rfl, by simp⟩
      | succ n ih =>
        intro x
        obtain ⟨rs, h1, h2, h3⟩ := ih (x + 1#64)
        have hx := toInt_bounds x
        refine ⟨some x :: rs, ?_, by simp [h2], by simpa using h3⟩
        have hs : rangeInclNext ⟨a, BitVec.intMax 64, x⟩ = some (some x, ⟨a, BitVec.intMax 64, x + 1#64⟩) := by
          have e1 : a.sle (BitVec.intMax 64) = true := by simp only [BitVec.sle, hmax, decide_eq_true_eq]; omega
          have e2 : x.sle (BitVec.intMax 64) = true := by simp only [BitVec.sle, hmax, decide_eq_true_eq]; omega
          simp [rangeInclNext, e1, e2]
        rw [pulls, hs]; simp [h1]
    exact key n a
  · intro hne
    have hlt : -2^63 < a.toInt := by
      rcases lt_or_eq_of_le ha.1 with h | h
      · exact h
      · exact absurd (BitVec.toInt_inj.mp (by rw [hmin, ← h])) hne
    have key : ∀ n (x : BitVec 64), ∃ rs, pulls rangeInclNext n ⟨a, BitVec.intMin 64, x⟩ = some rs ∧ rs.length = n ∧
        ∀ r ∈ rs, r.isSome := by
      intro n
      induction n with
      | zero => intro x; exact ⟨[], rfl, rfl, by simp⟩
      | succ n ih =>
        intro x
        obtain ⟨rs, h1, h2, h3⟩ := ih (x - 1#64)
        have hx := toInt_bounds x
        refine ⟨some x :: rs, ?_, by simp [h2], by simpa using h3⟩
        have hs : rangeInclNext ⟨a, BitVec.intMin 64, x⟩ = some (some x, ⟨a, BitVec.intMin 64, x - 1#64⟩) := by
          have e1 : a.sle (BitVec.intMin 64) = false := by simp only [BitVec.sle, hmin, decide_eq_false_iff_not]; omega
          have e2 : (BitVec.intMin 64).sle x = true := by simp only [BitVec.sle, hmin, decide_eq_true_eq]; omega
          simp [rangeInclNext, e1, e2]
        rw [pulls, hs]; simp [h1]
    exact key n a

theorem absInt_toInt {x : BitVec 64} (h : x.toInt ≠ -2^63) : (absInt x).toInt = |x.toInt| := by
  have hb := toInt_bounds x
  unfold absInt
  by_cases hx : x.toInt < 0
  · rw [if_pos (by simp [BitVec.slt, hx]), abs_of_neg hx, BitVec.toInt_neg, Int.bmod_eq_of_le] <;> omega
  · rw [if_neg (by simp [BitVec.slt, hx]), abs_of_nonneg (by omega)]

/-- **C08 (length), partial.** When the distance between the bounds is less than 2^63, the reported length of an
exclusive range is the number of values it yields; for an inclusive range the same holds below 2^63 - 1.  Missing:
larger distances, where the claim is false (`C08_length_violated`). -/
theorem C08_range_length_partial (a b : BitVec 64) :
    (|b.toInt - a.toInt| < 2^63 → (rangeLen a b).toInt = ((towards a.toInt b.toInt).length : Int)) ∧
    (|b.toInt - a.toInt| < 2^63 - 1 →
      (rangeInclLen a b).toInt = ((towards a.toInt (beyond a.toInt b.toInt)).length : Int)) := by
  have hab := toInt_bounds a
  have hbb := toInt_bounds b
  have hlen : |b.toInt - a.toInt| < 2^63 → (absInt (b - a)).toInt = |b.toInt - a.toInt| := by
    intro h
    have hd := abs_lt.mp h
    have e : (b - a).toInt = b.toInt - a.toInt := by
      rw [BitVec.toInt_sub, Int.bmod_eq_of_le] <;> omega
    rw [absInt_toInt (by rw [e]; omega), e]
  have tl : ∀ x y : Int, ((towards x y).length : Int) = |y - x| := by
    intro x y
    unfold towards
    split
    · rw [abs_of_nonneg (by omega)]; simp; omega
    · rw [abs_of_neg (by omega)]; simp; omega
  constructor
  · intro h; rw [rangeLen, hlen h, tl]
  · intro h
    have h0 : |b.toInt - a.toInt| < 2^63 := by omega
    have := hlen h0
    rw [rangeInclLen, toInt_succ (by rw [this]; omega), this, tl]
    unfold beyond
    split
    · rw [abs_of_nonneg (by omega), abs_of_nonneg (by omega)]; omega
    · rw [abs_of_neg (by omega), abs_of_neg (by omega)]; omega

/-- **C08 violated (length).** The range from the smallest to the largest integer yields 2^64 - 1 values but reports
length 1; a range over exactly 2^63 values reports a negative length. -/
theorem C08_length_violated :
    (rangeLen (BitVec.intMin 64) (BitVec.intMax 64)).toInt = 1 ∧
    (towards (BitVec.intMin 64).toInt (BitVec.intMax 64).toInt).length = 2^64 - 1 ∧
    (rangeLen (BitVec.intMin 64) 0#64).toInt < 0 := by
  refine ⟨by decide, ?_, by decide⟩
  rw [show (BitVec.intMin 64).toInt = -2^63 by decide, show (BitVec.intMax 64).toInt = 2^63 - 1 by decide]
  unfold towards
  rw [if_pos (by norm_num), List.length_map, List.length_range]
  decide

example : ∃ ys, Behaves rangeInclNext (rangeIter 3#64 1#64) ys ∧ ys.map BitVec.toInt = [3, 2, 1] :=
  C08_range_inclusive_partial 3#64 1#64 (by decide) (by decide)

end Ferlium.Iter.Props
