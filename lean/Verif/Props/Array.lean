import Verif.Proofs.Array

/-!
Property theorems about ferlium arrays: C01, C02, C03, C05 (concatenation), C13 (array part), C42.
-/
namespace Ferlium.Arr.Props
open Ferlium.Arr

/-! ### Specification: an ideal double-ended list -/

/-- Operations a program can perform on an array. -/
inductive Op (α : Type) where
  | append (x : α)
  | prepend (x : α)
  | popBack
  | popFront
  | peekBack
  | peekFront
  | get (i : Int)
  | set (i : Int) (x : α)
  | clone
  | slice (s e : Int)
  | len

/-- What the program observes. -/
inductive Out (α : Type) where
  | unit
  | opt (x : Option α)
  | elem (x : α)
  | num (n : Int)
  | failed
  deriving DecidableEq

/-- Position denoted by the integer index `i` in a list of length `n`: negative indices count from the end. -/
def denotes (n : Nat) (i : Int) : Option Nat :=
  if 0 ≤ i ∧ i < n then some i.toNat
  else if -(n : Int) ≤ i ∧ i < 0 then some (n + i).toNat
  else none

/-- Bound used by the specification of slicing as implemented: a bound outside `[-n, n]` becomes `n`. -/
def specBound (n : Nat) (i : Int) : Nat :=
  if 0 ≤ i ∧ i ≤ n then i.toNat else if -(n : Int) ≤ i ∧ i < 0 then (n + i).toNat else n

/-- One step of the ideal list. -/
def specStep {α : Type} (xs : List α) : Op α → List α × Out α
  | .append x => (xs ++ [x], .unit)
  | .prepend x => (x :: xs, .unit)
  | .popBack => (xs.dropLast, .opt xs.getLast?)
  | .popFront => (xs.tail, .opt xs.head?)
  | .peekBack => (xs, .opt xs.getLast?)
  | .peekFront => (xs, .opt xs.head?)
  | .get i => match (denotes xs.length i).bind (fun j => xs[j]?) with
    | some x => (xs, .elem x)
    | none => (xs, .failed)
  | .set i x => match denotes xs.length i with
    | some j => (xs.set j x, .unit)
    | none => (xs, .failed)
  | .clone => (xs, .unit)
  | .slice s e => ((xs.take (specBound xs.length e)).drop (specBound xs.length s), .unit)
  | .len => (xs, .num xs.length)

def specRun {α : Type} (xs : List α) : List (Op α) → List α × List (Out α)
  | [] => (xs, [])
  | o :: os =>
    let r := specStep xs o
    let rest := specRun r.1 os
    (rest.1, r.2 :: rest.2)

/-! ### The same operations on the modelled array -/

/-- One operation of the real array.  Only the source-level index panic is turned into the observation
`failed`; every memory error aborts the run. -/
def implStep {α : Type} (a : Arr α) : Op α → Except Err (Arr α × Out α)
  | .append x => do let b ← append a x; .ok (b, .unit)
  | .prepend x => do let b ← prepend a x; .ok (b, .unit)
  | .popBack => do let (x, b) ← popBack a; .ok (b, .opt x)
  | .popFront => do let (x, b) ← popFront a; .ok (b, .opt x)
  | .peekBack => do let x ← peekBack a; .ok (a, .opt x)
  | .peekFront => do let x ← peekFront a; .ok (a, .opt x)
  | .get i => match index a i with
    | .ok x => .ok (a, .elem x)
    | .error .indexPanic => .ok (a, .failed)
    | .error e => .error e
  | .set i x => match indexAssign a i x with
    | .ok b => .ok (b, .unit)
    | .error .indexPanic => .ok (a, .failed)
    | .error e => .error e
  | .clone => do let b ← clone a; .ok (b, .unit)
  | .slice s e => do let b ← slice a s e; .ok (b, .unit)
  | .len => .ok (a, .num a.len)

def implRun {α : Type} (a : Arr α) : List (Op α) → Except Err (Arr α × List (Out α))
  | [] => .ok (a, [])
  | o :: os => do
    let (b, r) ← implStep a o
    let (c, rs) ← implRun b os
    .ok (c, r :: rs)

/-- What a program sees when it reads every element by index. -/
def observe {α : Type} (a : Arr α) : Except Err (List α) :=
  (List.range a.len.toNat).mapM (fun i : Nat => index a (i : Int))

/-! ### Helper facts -/

theorem observe_rep {α : Type} {a : Arr α} {xs : List α} (h : Rep a xs) : observe a = .ok xs := by
  unfold observe
  have hl := h.len
  rw [show a.len.toNat = xs.length by omega]
  have key : ∀ n i : Nat, i + n = xs.length →
      (List.range' i n).mapM (fun i : Nat => index a (i : Int)) = .ok (xs.drop i) := by
    intro n
    induction n with
    | zero => intro i hi; rw [List.drop_eq_nil_of_le (by omega)]; rfl
    | succ n ih =>
      intro i hi
      have h1 : i < xs.length := by omega
      rw [List.range'_succ, List.mapM_cons, ih (i + 1) (by omega), rep_index h, if_neg (by omega), dif_pos (by simpa)]
      simp only [bind, Except.bind, pure, Except.pure, Int.toNat_natCast]
      rw [List.drop_eq_getElem_cons h1]
  rw [List.range_eq_range']
  simpa using key xs.length 0 (by omega)

theorem get_spec {α : Type} {a : Arr α} {xs : List α} (h : Rep a xs) (i : Int) :
    index a i = match (denotes xs.length i).bind (fun j => xs[j]?) with
      | some x => .ok x
      | none => .error .indexPanic := by
  rw [rep_index h]
  unfold denotes
  by_cases hneg : i < 0
  · rw [if_pos hneg, if_neg (by omega)]
    by_cases hb : -i ≤ xs.length
    · rw [dif_pos ⟨hb, hneg⟩, if_pos (by omega)]
      simp only [Option.bind_some]
      rw [List.getElem?_eq_getElem (by omega)]
    · rw [dif_neg (by omega), if_neg (by omega)]; rfl
  · rw [if_neg hneg]
    by_cases hb : i.toNat < xs.length
    · rw [dif_pos hb, if_pos (by omega)]
      simp [hb]
    · rw [dif_neg hb, if_neg (by omega), if_neg (by omega)]; rfl

theorem set_spec {α : Type} {a : Arr α} {xs : List α} (h : Rep a xs) (i : Int) (x : α) :
    match denotes xs.length i with
      | some j => ∃ b, indexAssign a i x = .ok b ∧ Rep b (xs.set j x)
      | none => indexAssign a i x = .error .indexPanic := by
  have hl := h.len
  unfold denotes indexAssign resolveIndex signedIndexToOffset
  by_cases hneg : i < 0
  · rw [if_neg (by omega), if_pos hneg]
    by_cases hb : -i ≤ xs.length
    · rw [if_pos (by omega)]
      simp only []
      rw [if_neg (by omega)]
      obtain ⟨d, hd, hr⟩ := rep_assign_nat h (i := ((xs.length : Int) + i).toNat) (by omega) x
      refine ⟨_, ?_, hr⟩
      rw [show (((((xs.length : Int) + i).toNat : Nat)) : Int) = a.len + i by omega] at hd
      simp only [bind, Except.bind]
      rw [hd]
    · rw [if_neg (by omega)]
      simp only []
      rw [if_pos (by omega)]; rfl
  · rw [if_neg hneg]
    by_cases hb : i.toNat < xs.length
    · rw [if_pos (by omega)]
      simp only []
      rw [if_neg (by omega)]
      obtain ⟨d, hd, hr⟩ := rep_assign_nat h (i := i.toNat) hb x
      refine ⟨_, ?_, hr⟩
      rw [show ((i.toNat : Nat) : Int) = i by omega] at hd
      simp only [bind, Except.bind]
      rw [hd]
    · rw [if_neg (by omega), if_neg (by omega)]
      simp only []
      rw [if_pos (by omega)]; rfl

theorem bound_spec (n : Nat) (i : Int) : (sliceBound n i).toNat = specBound n i := by
  unfold sliceBound specBound signedIndexToOffset
  simp only []
  split_ifs <;> omega

theorem step_spec {α : Type} {a : Arr α} {xs : List α} (h : Rep a xs) (o : Op α) :
    ∃ b, implStep a o = .ok (b, (specStep xs o).2) ∧ Rep b (specStep xs o).1 := by
  have hl := h.len
  cases o with
  | append x => obtain ⟨b, hb, hr⟩ := rep_append h x; exact ⟨b, by simp [implStep, hb, specStep, bind, Except.bind], hr⟩
  | prepend x => obtain ⟨b, hb, hr⟩ := rep_prepend h x; exact ⟨b, by simp [implStep, hb, specStep, bind, Except.bind], hr⟩
  | popBack => obtain ⟨b, hb, hr⟩ := rep_popBack h; exact ⟨b, by simp [implStep, hb, specStep, bind, Except.bind], hr⟩
  | popFront => obtain ⟨b, hb, hr⟩ := rep_popFront h; exact ⟨b, by simp [implStep, hb, specStep, bind, Except.bind], hr⟩
  | peekBack =>
    refine ⟨a, ?_, h⟩
    unfold implStep peekBack specStep
    by_cases h0 : a.len ≤ 0
    · have : xs = [] := List.length_eq_zero_iff.mp (by omega)
      subst this
      simp [h0, bind, Except.bind]
    · rw [if_neg h0]
      have := h.offsetRead (i := xs.length - 1) (by omega)
      rw [show (((xs.length - 1 : Nat)) : Int) = a.len - 1 by omega] at this
      rw [this, List.getLast?_eq_getElem?, List.getElem?_eq_getElem (by omega)]
      rfl
  | peekFront =>
    refine ⟨a, ?_, h⟩
    unfold implStep peekFront specStep
    by_cases h0 : a.len ≤ 0
    · have : xs = [] := List.length_eq_zero_iff.mp (by omega)
      subst this
      simp [h0, bind, Except.bind]
    · rw [if_neg h0]
      have := h.offsetRead (i := 0) (by omega)
      rw [show ((0 : Nat) : Int) = 0 by rfl] at this
      rw [this, List.head?_eq_getElem?, List.getElem?_eq_getElem (by omega)]
      rfl
  | get i =>
    refine ⟨a, ?_, ?_⟩
    · have := get_spec h i
      simp only [implStep, specStep]
      rw [this]
      cases (denotes xs.length i).bind (fun j => xs[j]?) <;> rfl
    · simp only [specStep]
      split <;> exact h
  | set i x =>
    have := set_spec h i x
    simp only [implStep, specStep]
    cases hd : denotes xs.length i with
    | none => rw [hd] at this; simp only [] at this; rw [this]; exact ⟨a, rfl, h⟩
    | some j =>
      rw [hd] at this
      obtain ⟨b, hb, hr⟩ := this
      rw [hb]; exact ⟨b, rfl, hr⟩
  | clone => obtain ⟨b, hb, hr⟩ := rep_clone h; exact ⟨b, by simp [implStep, hb, specStep, bind, Except.bind], hr⟩
  | slice s e =>
    obtain ⟨b, hb, hr⟩ := rep_slice h s e
    rw [bound_spec, bound_spec] at hr
    exact ⟨b, by simp [implStep, hb, specStep, bind, Except.bind], hr⟩
  | len => exact ⟨a, by simp [implStep, specStep, hl], h⟩

theorem run_spec {α : Type} (ops : List (Op α)) : ∀ {a : Arr α} {xs : List α}, Rep a xs →
    ∃ b, implRun a ops = .ok (b, (specRun xs ops).2) ∧ Rep b (specRun xs ops).1 := by
  induction ops with
  | nil => intro a xs h; exact ⟨a, rfl, h⟩
  | cons o os ih =>
    intro a xs h
    obtain ⟨b, hb, hr⟩ := step_spec h o
    obtain ⟨c, hc, hr'⟩ := ih hr
    refine ⟨c, ?_, hr'⟩
    simp [implRun, hb, hc, specRun, bind, Except.bind]

/-! ### Property theorems -/

/-- **C01.** An array built from any items (with any pre-allocated capacity), put through any sequence of
operations, produces exactly the observations of an ideal list, never hits a memory error, and afterwards reads
back exactly the ideal list. -/
theorem C01_array_refines_list {α : Type} (cap : Int) (init : List α) (ops : List (Op α)) :
    ∃ a b, fromItems init (withCapacity cap) = .ok a ∧
      implRun a ops = .ok (b, (specRun init ops).2) ∧
      observe b = .ok (specRun init ops).1 := by
  obtain ⟨a, ha, hr⟩ := rep_fromItems init (withCapacity cap) [] (rep_withCapacity cap)
  obtain ⟨b, hb, hr'⟩ := run_spec ops (by simpa using hr)
  exact ⟨a, b, ha, hb, observe_rep hr'⟩

/-- A history that wraps around, grows while wrapped and shrinks again. -/
example : (specRun [1, 2] [.popFront, .append 3, .prepend 4, .append 5, .popBack, .get (-1), .get 7]).2
    = [.opt (some 1), .unit, .unit, .unit, .opt (some 5), .elem 3, .failed] := by decide

/-- **C02.** Indexing: for any reachable array the read succeeds exactly on `-len ≤ i < len` with the element the
ideal list has there, and fails with the source-level index panic (never a memory error) otherwise; assignment
changes exactly that element and otherwise fails the same way. -/
theorem C02_index_exact {α : Type} (cap : Int) (init : List α) (ops : List (Op α)) (i : Int) (x : α) :
    ∃ a b, fromItems init (withCapacity cap) = .ok a ∧ implRun a ops = .ok (b, (specRun init ops).2) ∧
      let xs := (specRun init ops).1
      ((0 ≤ i ∧ i < xs.length) → ∃ y, xs[i.toNat]? = some y ∧ index b i = .ok y ∧
          ∃ c, indexAssign b i x = .ok c ∧ observe c = .ok (xs.set i.toNat x)) ∧
      ((-(xs.length : Int) ≤ i ∧ i < 0) → ∃ y, xs[(xs.length + i).toNat]? = some y ∧ index b i = .ok y ∧
          ∃ c, indexAssign b i x = .ok c ∧ observe c = .ok (xs.set (xs.length + i).toNat x)) ∧
      ((i < -(xs.length : Int) ∨ (xs.length : Int) ≤ i) →
          index b i = .error .indexPanic ∧ indexAssign b i x = .error .indexPanic) := by
  obtain ⟨a, ha, hr⟩ := rep_fromItems init (withCapacity cap) [] (rep_withCapacity cap)
  obtain ⟨b, hb, hr'⟩ := run_spec ops (by simpa using hr)
  refine ⟨a, b, ha, hb, ?_⟩
  generalize (specRun init ops).1 = xs at *
  have hg := get_spec hr' i
  have hset := set_spec hr' i x
  refine ⟨?_, ?_, ?_⟩
  · intro hi
    have hd : denotes xs.length i = some i.toNat := by unfold denotes; rw [if_pos hi]
    have hlt : i.toNat < xs.length := by omega
    rw [hd] at hg hset
    obtain ⟨c, hc, hrc⟩ := hset
    refine ⟨xs[i.toNat], by simp [hlt], by rw [hg]; simp [hlt], c, hc, observe_rep hrc⟩
  · intro hi
    have hd : denotes xs.length i = some (xs.length + i).toNat := by
      unfold denotes; rw [if_neg (by omega), if_pos hi]
    have hlt : (xs.length + i).toNat < xs.length := by omega
    rw [hd] at hg hset
    obtain ⟨c, hc, hrc⟩ := hset
    refine ⟨xs[(xs.length + i).toNat], by simp [hlt], by rw [hg]; simp [hlt], c, hc, observe_rep hrc⟩
  · intro hi
    have hd : denotes xs.length i = none := by unfold denotes; rw [if_neg (by omega), if_neg (by omega)]
    rw [hd] at hg hset
    exact ⟨hg, hset⟩

/-- The clamped bound a user expects: negative counts from the end, anything beyond an end becomes that end. -/
def clampBound (n : Nat) (i : Int) : Nat :=
  (max 0 (min (n : Int) (if i < 0 then n + i else i))).toNat

/-- **C03 (part).** Slicing never fails on a reachable array, and for bounds not below `-len` the result is exactly
the contiguous run between the clamped bounds.  Missing from the full property: bounds below `-len`, where the code
deviates (see `C03_slice_low_bound_violated`). -/
theorem C03_slice_partial {α : Type} (cap : Int) (init : List α) (ops : List (Op α)) (s e : Int) :
    ∃ a b c, fromItems init (withCapacity cap) = .ok a ∧ implRun a ops = .ok (b, (specRun init ops).2) ∧
      slice b s e = .ok c ∧
      let xs := (specRun init ops).1
      (-(xs.length : Int) ≤ s → -(xs.length : Int) ≤ e →
        observe c = .ok ((xs.take (clampBound xs.length e)).drop (clampBound xs.length s))) := by
  obtain ⟨a, ha, hr⟩ := rep_fromItems init (withCapacity cap) [] (rep_withCapacity cap)
  obtain ⟨b, hb, hr'⟩ := run_spec ops (by simpa using hr)
  obtain ⟨c, hc, hrc⟩ := rep_slice hr' s e
  refine ⟨a, b, c, ha, hb, hc, ?_⟩
  generalize (specRun init ops).1 = xs at *
  intro _ hs he
  have key : ∀ i : Int, -(xs.length : Int) ≤ i → (sliceBound xs.length i).toNat = clampBound xs.length i := by
    intro i hi
    rw [bound_spec]; unfold specBound clampBound
    split_ifs <;> omega
  rw [key s hs, key e he] at hrc
  exact observe_rep hrc

example : clampBound 5 (-2) = 3 ∧ clampBound 5 9 = 5 ∧ clampBound 5 2 = 2 := by decide

/-- **C03 violated** for a bound below `-len`: `slice([1,2,3], -5, 2)` should be `[1,2]` after clamping but is `[]`
(array.fer:206-207 returns `len`). -/
theorem C03_slice_low_bound_violated :
    ∃ (a c : Arr Nat), fromItems [1, 2, 3] (withCapacity 0) = .ok a ∧ slice a (-5) 2 = .ok c ∧
      observe c = .ok [] ∧ ([1, 2, 3].take (clampBound 3 2)).drop (clampBound 3 (-5)) = [1, 2] := by
  obtain ⟨a, ha, hr⟩ := rep_fromItems [1, 2, 3] (withCapacity 0) [] (rep_withCapacity (α := Nat) 0)
  obtain ⟨c, hc, hrc⟩ := rep_slice hr (-5) 2
  exact ⟨a, c, ha, hc, observe_rep hrc, by decide⟩

/-- **C05 (concatenation).** Concatenating two reachable arrays gives the elements of the first followed by those of
the second, without a memory error; both inputs still read back unchanged (they are not modified: the operation
returns a new array). -/
theorem C05_concat {α : Type} (cap cap' : Int) (xs ys : List α) (ops ops' : List (Op α)) :
    ∃ a b a' b' c, fromItems xs (withCapacity cap) = .ok a ∧ implRun a ops = .ok (a', (specRun xs ops).2) ∧
      fromItems ys (withCapacity cap') = .ok b ∧ implRun b ops' = .ok (b', (specRun ys ops').2) ∧
      concat a' b' = .ok c ∧ observe c = .ok ((specRun xs ops).1 ++ (specRun ys ops').1) := by
  obtain ⟨a, ha, hr⟩ := rep_fromItems xs (withCapacity cap) [] (rep_withCapacity cap)
  obtain ⟨b, hb, hs⟩ := rep_fromItems ys (withCapacity cap') [] (rep_withCapacity cap')
  obtain ⟨a', ha', hr'⟩ := run_spec ops (by simpa using hr)
  obtain ⟨b', hb', hs'⟩ := run_spec ops' (by simpa using hs)
  obtain ⟨c, hc, hrc⟩ := rep_concat hr' hs'
  exact ⟨a, b, a', b', c, ha, ha', hb, hb', hc, observe_rep hrc⟩

/-- **C42.** Ownership: after any history the slots that own a value hold exactly the elements of the ideal list
(each once, nothing leaked, nothing duplicated), and dropping the array releases each remaining element exactly once,
leaving no slot owning a value. -/
theorem C42_ownership {α : Type} (cap : Int) (init : List α) (ops : List (Op α)) :
    ∃ a b c, fromItems init (withCapacity cap) = .ok a ∧ implRun a ops = .ok (b, (specRun init ops).2) ∧
      (b.data.filterMap id).Perm (specRun init ops).1 ∧
      drop b = .ok ((specRun init ops).1.reverse, c) ∧ (∀ s ∈ c.data, s = none) := by
  obtain ⟨a, ha, hr⟩ := rep_fromItems init (withCapacity cap) [] (rep_withCapacity cap)
  obtain ⟨b, hb, hr'⟩ := run_spec ops (by simpa using hr)
  obtain ⟨c, hc, hrc, _⟩ := rep_dropLoop (specRun init ops).1.length b _ hr' rfl
  have hl := hr'.len
  refine ⟨a, b, c, ha, hb, hr'.owned, ?_, ?_⟩
  · unfold drop; rw [show b.len.toNat = (specRun init ops).1.length by omega]; exact hc
  · intro s hs
    obtain ⟨p, hp, rfl⟩ := List.mem_iff_getElem.mp hs
    have := hrc.slots p hp
    rw [List.getElem?_eq_getElem hp] at this
    simpa using this

/-- **C13 (arrays).** If element equality implies equal element hashing, then equal arrays (built by any two
histories, with any internal layout) hash equally from any hasher state; and array equality is exactly
element-wise equality of the contents. -/
theorem C13_array_eq_hash {α σ : Type} (eq : α → α → Bool) (writeInt : Int → σ → σ) (hash : α → σ → σ)
    (law : ∀ x y, eq x y = true → hash x = hash y)
    (cap cap' : Int) (xs ys : List α) (ops ops' : List (Op α)) (s : σ) :
    ∃ a b a' b', fromItems xs (withCapacity cap) = .ok a ∧ implRun a ops = .ok (a', (specRun xs ops).2) ∧
      fromItems ys (withCapacity cap') = .ok b ∧ implRun b ops' = .ok (b', (specRun ys ops').2) ∧
      arrEq eq a' b' = .ok (List.isEqv (specRun xs ops).1 (specRun ys ops').1 eq) ∧
      (arrEq eq a' b' = .ok true → arrHash writeInt hash a' s = arrHash writeInt hash b' s ∧
        ∃ t, arrHash writeInt hash a' s = .ok t) := by
  obtain ⟨a, ha, hr⟩ := rep_fromItems xs (withCapacity cap) [] (rep_withCapacity cap)
  obtain ⟨b, hb, hs⟩ := rep_fromItems ys (withCapacity cap') [] (rep_withCapacity cap')
  obtain ⟨a', ha', hr'⟩ := run_spec ops (by simpa using hr)
  obtain ⟨b', hb', hs'⟩ := run_spec ops' (by simpa using hs)
  refine ⟨a, b, a', b', ha, ha', hb, hb', Rep.arrEq eq hr' hs', ?_⟩
  rw [Rep.arrEq eq hr' hs', hr'.arrHash, hs'.arrHash]
  intro h0
  refine ⟨?_, _, rfl⟩
  generalize (specRun xs ops).1 = us at *
  generalize (specRun ys ops').1 = vs at *
  have h : List.isEqv us vs eq = true := by simpa using h0
  clear h0
  congr 1
  have hlen : us.length = vs.length := by
    rw [List.isEqv_eq_decide] at h; simp at h; exact h.1
  rw [hlen]
  generalize writeInt vs.length s = t
  clear hr' hs' ha' hb' hlen
  induction us generalizing vs t with
  | nil => cases vs with
    | nil => rfl
    | cons => simp at h
  | cons u us ih => cases vs with
    | nil => simp at h
    | cons v vs =>
      simp only [List.isEqv_cons_cons, Bool.and_eq_true] at h
      rw [List.foldl_cons, List.foldl_cons, law _ _ h.1]
      exact ih _ h.2 _

example : ∀ x y : Nat, (x == y) = true → (fun (s : Nat) => s + x) = (fun s => s + y) := by
  intro x y h; rw [eq_of_beq h]

/-- The results of calling the array iterator `n` times from index `idx`. -/
def pulls {α : Type} (a : Arr α) : Nat → Int → Except Err (List (Option α))
  | 0, _ => .ok []
  | n + 1, idx =>
    match iterNext a idx with
    | .error e => .error e
    | .ok (r, idx') => (pulls a n idx').map (r :: ·)

/-- **C01 (iteration).** Whatever history produced the array, iterating over it yields exactly its elements in order
and then `None` on every further call, without any out-of-bounds access. -/
theorem C01_array_iteration (cap : Int) (xs : List α) (ops : List (Op α)) (n : Nat) :
    ∃ a a', fromItems xs (withCapacity cap) = .ok a ∧ implRun a ops = .ok (a', (specRun xs ops).2) ∧
      pulls a' n 0 = .ok ((List.range n).map (fun i => (specRun xs ops).1[i]?)) := by
  obtain ⟨a, ha, hr⟩ := rep_fromItems xs (withCapacity cap) [] (rep_withCapacity cap)
  obtain ⟨a', ha', hr'⟩ := run_spec ops (by simpa using hr)
  refine ⟨a, a', ha, ha', ?_⟩
  generalize (specRun xs ops).1 = zs at hr'
  have hlen := hr'.len
  have key : ∀ n i : Nat, pulls a' n (min i zs.length : Nat) = .ok ((List.range n).map (fun j => zs[i + j]?)) := by
    intro n
    induction n with
    | zero => intro i; rfl
    | succ n ih =>
      intro i
      rw [pulls]
      have hstep : iterNext a' (min i zs.length : Nat) = .ok (zs[i]?, ((min (i + 1) zs.length : Nat) : Int)) := by
        unfold iterNext
        rw [hlen]
        by_cases hi : i < zs.length
        · rw [if_pos (by omega), show min i zs.length = i by omega, hr'.offsetRead hi]
          simp only [bind, Except.bind, List.getElem?_eq_getElem hi]
          congr 2; omega
        · rw [if_neg (by omega), List.getElem?_eq_none (by omega)]
          congr 2; omega
      rw [hstep]
      simp only [ih, Except.map]
      rw [List.range_succ_eq_map]
      simp only [List.map_cons, List.map_map, Nat.add_zero]
      congr 2
      apply List.map_congr_left
      intro j _
      simp only [Function.comp]
      congr 1; omega
  simpa using key n 0

example : ∃ a a', fromItems [7, 8] (withCapacity 2) = .ok a ∧ implRun a [.append 9] = .ok (a', (specRun [7, 8] [.append 9]).2) ∧
    pulls a' 5 0 = .ok [some 7, some 8, some 9, none, none] := by
  simpa [specRun, specStep, List.range_succ] using C01_array_iteration 2 [7, 8] [.append 9] 5

end Ferlium.Arr.Props
