import Verif.Proofs.BitSet

/-!
C22: the dense bit set behaves as a finite set of naturals, whatever sequence of operations built it and
whichever of its three representations it is in.
-/
namespace Ferlium.BitSet

/-- Specification: the set the operations are supposed to build. -/
def den : Expr → Finset Nat
  | .empty => ∅
  | .withCapacity _ => ∅
  | .insert e i => Insert.insert i (den e)
  | .remove e i => (den e).erase i
  | .union e o => den e ∪ den o

theorem run_spec (e : Expr) : ∃ s, run e = some s ∧ Ok s ∧ ∀ i, bit s i = decide (i ∈ den e) := by
  induction e with
  | empty => exact ⟨_, rfl, trivial, by simp [bit, wordAt, den]⟩
  | withCapacity n => exact ⟨_, rfl, ok_withCapacity n, by simp [bit, wordAt_withCapacity, den]⟩
  | insert e i ih =>
    obtain ⟨s, h1, h2, h3⟩ := ih
    exact ⟨insert s i, by simp [run, h1], ok_insert h2 i, by intro j; simp [bit_insert, den, h3]⟩
  | remove e i ih =>
    obtain ⟨s, h1, h2, h3⟩ := ih
    exact ⟨remove s i, by simp [run, h1], ok_remove h2 i, by intro j; simp [bit_remove, den, h3]⟩
  | union e o ih1 ih2 =>
    obtain ⟨s, h1, h2, h3⟩ := ih1
    obtain ⟨t, g1, g2, g3⟩ := ih2
    obtain ⟨u, hu, hok, hw⟩ := unionWith_spec h2 g2
    refine ⟨u, by simp [run, h1, g1, hu], hok, fun i => ?_⟩
    have := h3 i
    have := g3 i
    simp only [bit] at *
    rw [hw, BitVec.getLsbD_or]
    simp_all [den]

theorem elems_eq_sort {s : BS} {A : Finset Nat} (h : ∀ i, bit s i = decide (i ∈ A)) :
    elems s = A.sort (· ≤ ·) := by
  refine sorted_ext (elems_sorted s) ?_ ?_
  · exact (Finset.sortedLT_sort A).pairwise
  · intro i; rw [mem_elems, h]; simp

/-- **C22** building a set never panics, and membership, emptiness and cardinality are those of the
mathematical set. -/
theorem C22_queries (e : Expr) :
    ∃ s, run e = some s ∧ (∀ i, contains s i = decide (i ∈ den e)) ∧
      isEmpty s = decide (den e = ∅) ∧ len s = (den e).card := by
  obtain ⟨s, h1, h2, h3⟩ := run_spec e
  refine ⟨s, h1, fun i => by rw [contains_eq_bit, h3], ?_, ?_⟩
  · rw [Bool.eq_iff_iff, isEmpty_iff]
    simp only [h3, decide_eq_false_iff_not, decide_eq_true_eq]
    exact Finset.eq_empty_iff_forall_notMem.symm
  · rw [len_eq, elems_eq_sort h3, Finset.length_sort]

/-- **C22** equality and the data fed to the hasher depend on the members only: two sets built in different ways
are equal iff they have the same members, and then (and only then) they hash the same words. -/
theorem C22_equality (e o : Expr) (s t : BS) (hs : run e = some s) (ht : run o = some t) :
    (eqB s t = true ↔ den e = den o) ∧ (hashInput s = hashInput t ↔ den e = den o) := by
  obtain ⟨s', h1, _, h3⟩ := run_spec e
  obtain ⟨t', g1, _, g3⟩ := run_spec o
  rw [hs] at h1; rw [ht] at g1
  cases h1; cases g1
  have : (∀ i, bit s i = bit t i) ↔ den e = den o := by
    simp only [h3, g3, decide_eq_decide]
    exact Finset.ext_iff.symm
  exact ⟨(eqB_iff s t).trans this, (hashInput_iff s t).trans this⟩

/-- **C22** the intersection test is exact and never panics. -/
theorem C22_intersects (e o : Expr) (s t : BS) (hs : run e = some s) (ht : run o = some t) :
    intersects s t = some (decide (den e ∩ den o ≠ ∅)) := by
  obtain ⟨s', h1, h2, h3⟩ := run_spec e
  obtain ⟨t', g1, g2, g3⟩ := run_spec o
  rw [hs] at h1; rw [ht] at g1
  cases h1; cases g1
  obtain ⟨b, hb, hiff⟩ := intersects_spec h2 g2
  rw [hb]
  congr 1
  rw [Bool.eq_iff_iff, hiff, decide_eq_true_eq, ← Finset.nonempty_iff_ne_empty]
  simp only [h3, g3, decide_eq_true_eq, Finset.Nonempty, Finset.mem_inter]

/-- **C22** iteration yields the members in strictly ascending order, each once, and then `None` for ever. -/
theorem C22_iteration (e : Expr) (s : BS) (hs : run e = some s) (n : Nat) :
    takeNext n (iterOnes s) = (List.range n).map (fun k => ((den e).sort (· ≤ ·))[k]?) := by
  obtain ⟨s', h1, h2, h3⟩ := run_spec e
  rw [hs] at h1
  cases h1
  rw [takeNext_spec, remaining_iterOnes h2, elems_eq_sort h3]

/-- A set going through all three representations. -/
def sample : Expr := .union (.remove (.insert (.insert .empty 3) 200) 200) (.insert (.withCapacity 70) 64)

example : den sample = {3, 64} ∧ den (.insert (.insert .empty 64) 3) = den sample := by decide
example : ∃ s, run sample = some s ∧ takeNext 4 (iterOnes s) = [some 3, some 64, none, none] := by
  obtain ⟨s, h, _⟩ := run_spec sample
  refine ⟨s, h, ?_⟩
  rw [C22_iteration sample s h, show den sample = {3, 64} by decide,
    show (({3, 64} : Finset Nat).sort (· ≤ ·)) = [3, 64] from
      sorted_ext (Finset.sortedLT_sort _).pairwise (by decide) (by simp)]
  rfl

end Ferlium.BitSet
