import Verif.Proofs.BranchForwardSim

/-!
C34, second part: a boolean stored into a local only to be read and branched on goes directly to the target.
-/
namespace Ferlium.BranchForward

open Ferlium.Mir

/-- C34: the pass finishes, and the body it returns, if any, has the same executions.  `Tidy` are rules of well-formed
MIR which `Valid` does not contain. -/
theorem C34_flags_forwarded (isBool : Nat → Bool) (f : Body) (hv : Valid f) (hne : f ≠ []) (ht : Tidy f) :
    ∃ r, forwardBranches isBool f = some r ∧
      ∀ g, r = some g → ∀ (V σ : Type) (W : World V σ) (w : σ), SameBehaviour W f g w := by
  unfold forwardBranches
  cases hp : (List.range f.length).filterMap (planJoin isBool f) with
  | nil => exact ⟨none, rfl, fun g h => (by cases h)⟩
  | cons p ps =>
    have hE := edited_spec (isBool := isBool) hv ht
    rw [hp] at hE
    obtain ⟨g1, m, order, k1, k2, k3, k4⟩ := Edit.removeUnreachable_spec (edited_inRange hv.inRange hE)
      (by intro h; have := hE.len; rw [h] at this; exact hne (List.length_eq_zero_iff.1 this.symm))
    obtain ⟨g2, h1, h2, _⟩ := Edit.mergeBlocks_spec k2.inRange (Edit.ordered_ne_nil k2)
    refine ⟨some g2, by simp only []; rw [k1]; simp [h1], ?_⟩
    intro g hg V σ W w
    cases hg
    exact ((edited_same hv ht hE w).trans (Edit.relabel_same k2.relabel w)).trans (h2 V σ W w)

/-! ### Example -/

/-- `if a or b …`: the value of the `or` is stored into a flag; one store reaches the join through block 3. -/
def exampleOr : Body :=
  [ { ops := [⟨some 0, .alloca 0, []⟩, ⟨some 9, .stackSave, []⟩,
        ⟨some 1, .compareEqual, [.constant (.bool true), .pattern (.bool false)]⟩],
      term := .condBr (.register 1) 1 2 },
    { ops := [⟨none, .store, [.constant (.bool true), .register 0]⟩], term := .goto 4 },
    { ops := [⟨none, .store, [.constant (.bool false), .register 0]⟩], term := .goto 3 },
    { ops := [⟨none, .stackRestore, [.register 9]⟩], term := .goto 4 },
    { ops := [⟨some 2, .load, [.register 0]⟩], term := .condBr (.register 2) 5 6 },
    { ops := [⟨none, .drop 0, [.constant (.other 1), .function 0]⟩], term := .ret },
    { ops := [⟨none, .drop 0, [.constant (.other 2), .function 0]⟩], term := .ret } ]

example : (planJoin (· == 0) exampleOr 4).map (List.map fun a => (a.source, a.target, a.replay)) =
    some [(2, 6, [⟨none, .stackRestore, [.register 9]⟩]), (1, 5, [])] := by decide

example : ∃ w, Ends demo exampleOr [] (.returned w) := ⟨_, 20, by rfl⟩

example : Valid exampleOr ∧ exampleOr ≠ [] ∧ Tidy exampleOr := by
  refine ⟨⟨?_, ⟨by decide, ?_⟩, ?_⟩, by simp [exampleOr], ⟨?_, ?_, ?_, ?_⟩⟩
  · intro b hb t ht
    simp only [exampleOr, List.mem_cons, List.not_mem_nil, or_false] at hb
    rcases hb with rfl | rfl | rfl | rfl | rfl | rfl | rfl <;> simp [Term.successors] at ht <;> simp [exampleOr] <;> omega
  · intro b hb
    simp only [exampleOr, List.mem_cons, List.not_mem_nil, or_false] at hb
    rcases hb with rfl | rfl | rfl | rfl | rfl | rfl | rfl <;> simp
  · intro b hb op hop hk
    simp only [exampleOr, List.mem_cons, List.not_mem_nil, or_false] at hb
    rcases hb with rfl | rfl | rfl | rfl | rfl | rfl | rfl <;> simp at hop
    · rcases hop with rfl | rfl | rfl <;> cases hk
    · subst hop; exact ⟨_, _, rfl, by simp⟩
    · subst hop; exact ⟨_, _, rfl, by simp⟩
    · subst hop; cases hk
    · subst hop; cases hk
    · subst hop; cases hk
    · subst hop; cases hk
  · intro b hb
    simp only [exampleOr, List.mem_cons, List.not_mem_nil, or_false] at hb
    rcases hb with rfl | rfl | rfl | rfl | rfl | rfl | rfl <;> simp
  · intro b hb
    simp only [exampleOr, List.mem_cons, List.not_mem_nil, or_false] at hb
    rcases hb with rfl | rfl | rfl | rfl | rfl | rfl | rfl <;> simp
  · intro b hb
    simp only [exampleOr, List.mem_cons, List.not_mem_nil, or_false] at hb
    rcases hb with rfl | rfl | rfl | rfl | rfl | rfl | rfl <;> simp
  · intro b hb pre op post h r hr op' hop'
    simp only [exampleOr, List.mem_cons, List.not_mem_nil, or_false] at hb
    rcases hb with rfl | rfl | rfl | rfl | rfl | rfl | rfl
    · rcases pre with _ | ⟨x, _ | ⟨y, _ | ⟨z, pre⟩⟩⟩ <;> simp at h
      · obtain ⟨rfl, rfl⟩ := h; simp at hr
      · obtain ⟨rfl, rfl, rfl⟩ := h; simp at hr
      · obtain ⟨rfl, rfl, rfl, rfl⟩ := h; cases hop'
    all_goals
      rcases pre with _ | ⟨x, pre⟩ <;> simp at h
      obtain ⟨rfl, rfl⟩ := h; cases hop'

end Ferlium.BranchForward
