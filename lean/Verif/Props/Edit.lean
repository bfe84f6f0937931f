import Verif.Proofs.EditOrder

/-!
C54: the clean-up of the control flow of a body.
-/
namespace Ferlium.Edit

open Ferlium.Mir

/-! `Reachable`, `AllReachable`, `Joinable`, `ReachAvoiding` (paths in the block graph) are the specification; they are
defined next to the lemmas and do not mention the model functions. -/

/-- C54: removing the unreachable blocks finishes, keeps exactly the reachable blocks with their operations in their
order, and changes no behaviour. -/
theorem C54_unreachable_removed (f : Body) (hr : InRange f) (hne : f ≠ []) :
    ∃ g, removeUnreachable f = some g ∧
      (∀ (V σ : Type) (W : World V σ) (w : σ), SameBehaviour W f g w) ∧ (Valid f → Valid g) ∧ AllReachable g ∧
      ∃ kept : List Nat, kept.Pairwise (· < ·) ∧ (∀ b, b ∈ kept ↔ Reachable f b) ∧
        List.Forall₂ (fun b blk' => ∃ blk, f[b]? = some blk ∧ blk'.ops = blk.ops) kept g := by
  obtain ⟨g, m, order, k1, k2, k3, k4⟩ := removeUnreachable_spec hr hne
  refine ⟨g, k1, fun V σ W w => relabel_same k2.relabel w, k2.valid, k2.allReachable fun b hb => (k3 b).1 hb, order, k4, k3,
    k2.blocks.imp ?_⟩
  rintro b blk' ⟨blk, h1, h2⟩
  exact ⟨blk, h1, retargetBlock_ops h2⟩

/-- C54: merging blocks into their only predecessor finishes and changes no behaviour; if all blocks were reachable they
still are, and no block is left which is only entered by a jump from one other block. -/
theorem C54_blocks_merged (f : Body) (hr : InRange f) (hne : f ≠ []) :
    ∃ g, mergeBlocks f = some g ∧
      (∀ (V σ : Type) (W : World V σ) (w : σ), SameBehaviour W f g w) ∧ (Valid f → Valid g) ∧
      (AllReachable f → AllReachable g ∧ ∀ p q, ¬ Joinable g p q) := by
  obtain ⟨g, h1, h2, _, _, h3, h4⟩ := mergeBlocks_spec hr hne
  exact ⟨g, h1, h2, h3, h4⟩

/-- C54: the two steps in the order in which the passes run them. -/
theorem C54_cleanup (f : Body) (hr : InRange f) (hne : f ≠ []) :
    ∃ g, (removeUnreachable f >>= mergeBlocks) = some g ∧
      (∀ (V σ : Type) (W : World V σ) (w : σ), SameBehaviour W f g w) ∧ (Valid f → Valid g) ∧
      AllReachable g ∧ ∀ p q, ¬ Joinable g p q := by
  obtain ⟨g, m, order, k1, k2, k3, k4⟩ := removeUnreachable_spec hr hne
  obtain ⟨g', h1, h2, _, _, h3, h4⟩ := mergeBlocks_spec k2.inRange (ordered_ne_nil k2)
  have hall := h4 (k2.allReachable fun b hb => (k3 b).1 hb)
  exact ⟨g', by rw [k1]; exact h1, fun V σ W w => (relabel_same k2.relabel w).trans (h2 V σ W w),
    fun hv => h3 (k2.valid hv), hall.1, hall.2⟩

/-- C54: reordering finishes, loses and duplicates no block, changes no behaviour, and afterwards a block comes after
every other block which all paths to it pass through. -/
theorem C54_reordered (f : Body) (hr : InRange f) (hne : f ≠ []) :
    ∃ g, reorderBlocks f = some g ∧
      (∀ (V σ : Type) (W : World V σ) (w : σ), SameBehaviour W f g w) ∧ (Valid f → Valid g) ∧
      (∃ order : List Nat, order.Nodup ∧ (∀ b, b ∈ order ↔ b < f.length) ∧
        List.Forall₂ (fun b blk' => ∃ blk, f[b]? = some blk ∧ blk'.ops = blk.ops) order g) ∧
      ∀ d b, Reachable g b → ¬ ReachAvoiding g d b → d ≤ b := by
  obtain ⟨g, m, order, k1, k2, k3, k4⟩ := reorderBlocks_spec hr hne
  refine ⟨g, k1, fun V σ W w => relabel_same k2.relabel w, k2.valid, ⟨order, k2.nodup, k3, k2.blocks.imp ?_⟩, ?_⟩
  · rintro b blk' ⟨blk, h1, h2⟩
    exact ⟨blk, h1, retargetBlock_ops h2⟩
  · intro d b hb hd
    by_contra hlt
    apply hd
    have hbl := reachable_lt k2.inRange (ordered_ne_nil k2) hb
    obtain ⟨a, blk, h1, h2, h3, _⟩ := k2.get (List.getElem?_eq_getElem hbl)
    refine avoid_of_order k2 k4 b a h1 ?_ (by omega)
    exact reachable_back k2 hb h2

/-! ### Example -/

/-- Block 2 is unreachable, block 3 is only entered from block 1. -/
def exampleCfg : Body :=
  [ { ops := [⟨some 0, .compareEqual, [.constant (.bool true), .constant (.bool true)]⟩], term := .condBr (.register 0) 1 4 },
    { ops := [⟨none, .drop 0, [.constant (.other 1), .function 0]⟩], term := .goto 3 },
    { ops := [], term := .goto 3 },
    { ops := [⟨none, .drop 0, [.constant (.other 2), .function 0]⟩], term := .goto 4 },
    { ops := [], term := .ret } ]

example : InRange exampleCfg ∧ exampleCfg ≠ [] := by
  refine ⟨?_, by simp [exampleCfg]⟩
  intro b hb t ht
  simp only [exampleCfg, List.mem_cons, List.not_mem_nil, or_false] at hb
  rcases hb with rfl | rfl | rfl | rfl | rfl <;> simp [Term.successors] at ht <;> simp [exampleCfg] <;> omega

example : Ends demo exampleCfg [] (.returned [2, 7, 1, 7]) := ⟨10, by rfl⟩

end Ferlium.Edit
