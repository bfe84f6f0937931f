import Verif.Proofs.Peephole

/-!
C34, first part: a two-way branch whose arms store opposite booleans becomes one store.
-/
namespace Ferlium.Peephole

open Ferlium.Mir

/-! The specification: `Diamond f b p` says that block `b` of `f` branches on `p.condition` to two blocks which only
store `p.storedWhenTrue` and its negation into `p.destination` and then meet in `p.join`.  `Checked f` are three rules of
well-formed MIR which `Valid` does not contain. -/

/-- C34: the pass finishes; it changes the body exactly if there is such a branch; the new body has the same executions. -/
theorem C34_diamonds (f : Body) (hr : InRange f) (hne : f ≠ []) (hc : Checked f) :
    ∃ r, materialize f = some r ∧ (r = none ↔ ∀ b p, ¬ Diamond f b p) ∧
      ∀ g, r = some g → ∀ (V σ : Type) (W : World V σ) (w : σ), Safe W f w → SameBehaviour W f g w := by
  unfold materialize
  cases hp : (List.range f.length).filterMap (plan f) with
  | nil =>
    refine ⟨none, rfl, ⟨fun _ b p hD => ?_, fun _ => rfl⟩, fun g h => (by cases h)⟩
    have h1 : p ∈ (List.range f.length).filterMap (plan f) := by
      rw [List.mem_filterMap]
      obtain ⟨blk, t, e, hb, _⟩ := hD.branch
      exact ⟨b, by simpa using (List.getElem?_eq_some_iff.1 hb).1, plan_spec.2 hD⟩
    rw [hp] at h1
    cases h1
  | cons p ps =>
    have hE := edited_spec (f := f)
    rw [hp] at hE
    obtain ⟨g1, m, order, k1, k2, k3, k4⟩ := Edit.removeUnreachable_spec (edited_inRange hr hE)
      (by intro h; have := hE.len; rw [h] at this; exact hne (List.length_eq_zero_iff.1 this.symm))
    obtain ⟨g2, h1, h2, _⟩ := Edit.mergeBlocks_spec k2.inRange (Edit.ordered_ne_nil k2)
    refine ⟨some g2, by simp only []; rw [k1]; simp [h1], ⟨fun h => (by cases h), fun h => ?_⟩, ?_⟩
    · exfalso
      have : p ∈ (List.range f.length).filterMap (plan f) := by rw [hp]; simp
      obtain ⟨b, _, hb⟩ := List.mem_filterMap.1 this
      exact h b p (plan_spec.1 hb)
    · intro g hg V σ W w hs
      cases hg
      exact ((edited_same hc hE hs).trans (Edit.relabel_same k2.relabel w)).trans (h2 V σ W w)

/-! ### Example -/

/-- `not (true == false)` stored into a cell. -/
def exampleNot : Body :=
  [ { ops := [⟨some 0, .alloca 0, []⟩, ⟨some 1, .compareEqual, [.constant (.bool true), .constant (.bool false)]⟩],
      term := .condBr (.register 1) 1 2 },
    { ops := [⟨none, .store, [.constant (.bool false), .register 0]⟩], term := .goto 3 },
    { ops := [⟨none, .store, [.constant (.bool true), .register 0]⟩], term := .goto 3 },
    { ops := [⟨some 2, .load, [.register 0]⟩, ⟨none, .drop 0, [.register 2, .function 0]⟩], term := .ret } ]

example : InRange exampleNot ∧ exampleNot ≠ [] ∧ Checked exampleNot := by
  refine ⟨?_, by simp [exampleNot], ⟨?_, ?_, ?_⟩⟩
  · intro b hb t ht
    simp only [exampleNot, List.mem_cons, List.not_mem_nil, or_false] at hb
    rcases hb with rfl | rfl | rfl | rfl <;> simp [Term.successors] at ht <;> simp [exampleNot] <;> omega
  · intro b hb r t e ht b' hb'
    simp only [exampleNot, List.mem_cons, List.not_mem_nil, or_false] at hb hb'
    rcases hb with rfl | rfl | rfl | rfl <;> simp at ht
    obtain ⟨rfl, rfl, rfl⟩ := ht
    rcases hb' with rfl | rfl | rfl | rfl <;> simp [Op.owned]
  · intro b hb
    simp only [exampleNot, List.mem_cons, List.not_mem_nil, or_false] at hb
    rcases hb with rfl | rfl | rfl | rfl <;> simp
  · intro b hb
    simp only [exampleNot, List.mem_cons, List.not_mem_nil, or_false] at hb
    rcases hb with rfl | rfl | rfl | rfl <;> simp [Term.operands, exampleNot, Block.results]

example : Diamond exampleNot 0 ⟨0, .register 1, false, .register 0, 3⟩ :=
  ⟨⟨_, 1, 2, rfl, rfl, by decide, ⟨_, none, rfl, rfl⟩, _, none, rfl, rfl⟩, rfl⟩

example : ∃ w, Ends demo exampleNot [] (.returned w) := ⟨_, 8, by rfl⟩

end Ferlium.Peephole
