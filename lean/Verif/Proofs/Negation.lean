import Verif.Model.Negation
import Verif.Proofs.BranchForwardSim
import Verif.Proofs.EditOrder
import Verif.Props.Dominance

/-! Lemmas on the removal of negations: definitions, cells and the order given by dominance. -/
namespace Ferlium.Dominance

open Ferlium.Graph

/-- A walk has a beginning which ends in any of its nodes. -/
theorem Walk.prefix {g : Gr} {entry n : Nat} {S : List Nat} (h : Walk g entry n S) {a : Nat} (ha : a ∈ S) :
    ∃ S', Walk g entry a S' ∧ S' <:+ S ∧ (a ≠ n → S'.length < S.length) := by
  induction h with
  | start => simp at ha; subst ha; exact ⟨_, .start, List.suffix_refl _, fun h => absurd rfl h⟩
  | @step p n S hw he ih =>
    by_cases hn : a = n
    · subst hn; exact ⟨_, hw.step he, List.suffix_refl _, fun h => absurd rfl h⟩
    · rcases List.mem_cons.1 ha with h1 | h1
      · exact absurd h1 hn
      · obtain ⟨S', h2, h3, _⟩ := ih h1
        refine ⟨S', h2, h3.trans (List.suffix_cons _ _), fun _ => ?_⟩
        have := h3.length_le
        simp; omega

theorem dom_trans {g : Gr} {entry a b c : Nat} (h1 : DomW g entry b a) (h2 : DomW g entry c b) : DomW g entry c a := by
  intro S hS
  obtain ⟨S', h3, h4, _⟩ := hS.prefix (h2 S hS)
  exact h4.subset (h1 S' h3)

theorem dom_antisymm {g : Gr} {entry a b : Nat} (hr : Reach g entry a) (h1 : DomW g entry a b) (h2 : DomW g entry b a) :
    a = b := by
  by_contra hne
  obtain ⟨S, hS⟩ := reach_walk hr
  have key : ∀ (n : Nat) (S : List Nat), S.length = n → Walk g entry a S → False := by
    intro n
    induction n using Nat.strong_induction_on with
    | _ n ih =>
      intro S hn hS
      obtain ⟨S1, h3, _, h4⟩ := hS.prefix (h1 S hS)
      obtain ⟨S2, h5, _, h6⟩ := h3.prefix (h2 S1 h3)
      have := h4 (fun h => hne h.symm)
      have := h6 hne
      exact ih S2.length (by omega) S2 rfl h5
  exact key _ S rfl hS

end Ferlium.Dominance

namespace Ferlium.Negation

open Ferlium.Mir
open Ferlium.Peephole (boolValue boolValue_plain)
open Ferlium.Dominance Ferlium.Edit

variable {V σ : Type} {W : World V σ} {f g : Body}

/-- The operation at a site. -/
def opAt (f : Body) (d : Site) : Option Op := (f[d.block]?).bind fun b => b.ops[d.index]?

theorem opAt_some {d : Site} {op : Op} : opAt f d = some op ↔ ∃ blk, f[d.block]? = some blk ∧ blk.ops[d.index]? = some op := by
  unfold opAt
  rw [Option.bind_eq_some_iff]

theorem opAt_mem {d : Site} {op : Op} (h : opAt f d = some op) : ∃ b ∈ f, op ∈ b.ops := by
  obtain ⟨blk, h1, h2⟩ := opAt_some.1 h
  exact ⟨blk, List.mem_of_getElem? h1, List.mem_of_getElem? h2⟩

theorem mem_sites {op : Op} {d : Site} : (op, d) ∈ sites f ↔ opAt f d = some op := by
  rw [opAt_some]
  unfold sites
  rw [List.mem_flatMap]
  constructor
  · rintro ⟨⟨blk, i⟩, h1, h2⟩
    unfold blockSites at h2
    rw [List.mem_map] at h2
    obtain ⟨⟨op', j⟩, h3, h4⟩ := h2
    cases h4
    exact ⟨blk, BranchForward.mem_zipIdx.1 h1, BranchForward.mem_zipIdx.1 h3⟩
  · rintro ⟨blk, h1, h2⟩
    refine ⟨(blk, d.block), BranchForward.mem_zipIdx.2 h1, ?_⟩
    unfold blockSites
    rw [List.mem_map]
    exact ⟨(op, d.index), BranchForward.mem_zipIdx.2 h2, rfl⟩

theorem sites_fst : (sites f).map Prod.fst = f.flatMap Block.ops := by
  unfold sites
  rw [List.map_flatMap]
  have h1 : ∀ p : Block × Nat, (blockSites p).map Prod.fst = p.1.ops := by
    intro p
    unfold blockSites
    rw [List.map_map]
    have : (Prod.fst ∘ fun q : Op × Nat => (q.1, (⟨p.2, q.2⟩ : Site))) = Prod.fst := rfl
    rw [this]
    simp
  simp only [h1]
  have : (f.zipIdx.flatMap fun p => p.1.ops) = (f.zipIdx.map Prod.fst).flatMap Block.ops := by
    rw [List.flatMap_map]
  rw [this]
  simp

theorem site_unique (hs : SingleAssignment f) {d d' : Site} {op op' : Op} {r : Nat} (h : opAt f d = some op)
    (h' : opAt f d' = some op') (hr : op.result = some r) (hr' : op'.result = some r) : d = d' ∧ op = op' := by
  have h1 : results f = (sites f).filterMap fun p => p.1.result := by
    have : (sites f).filterMap (fun p => p.1.result) = ((sites f).map Prod.fst).filterMap Op.result := by
      rw [List.filterMap_map]; rfl
    rw [this, sites_fst]
    unfold results Block.results
    rw [List.filterMap_flatMap]
  have h2 := hs.1
  rw [h1] at h2
  have := eq_of_filterMap_nodup h2 (mem_sites.2 h) (mem_sites.2 h') hr hr'
  simpa [and_comm] using this

theorem definition_some {r : Nat} {op : Op} {d : Site} (h : definition f r = some (op, d)) :
    opAt f d = some op ∧ op.result = some r := by
  unfold definition at h
  have h1 := List.mem_of_find?_eq_some h
  have h2 := List.find?_some h
  exact ⟨mem_sites.1 (by simpa using h1), by simpa using h2⟩

theorem definition_of (hs : SingleAssignment f) {r : Nat} {op : Op} {d : Site} (h : opAt f d = some op)
    (hr : op.result = some r) : definition f r = some (op, d) := by
  cases hd : definition f r with
  | none =>
    unfold definition at hd
    rw [List.find?_eq_none] at hd
    exact absurd (by simp [hr]) (hd (op, d) (by simpa using mem_sites.2 h))
  | some p =>
    obtain ⟨h1, h2⟩ := definition_some hd
    obtain ⟨rfl, rfl⟩ := site_unique hs h h1 hr h2
    rfl

theorem isLocal_iff {r : Nat} : isLocal f r = true ↔ IsAlloca f r := by
  unfold isLocal
  rw [List.any_eq_true]
  constructor
  · rintro ⟨⟨op, d⟩, h1, h2⟩
    obtain ⟨b, hb, hop⟩ := opAt_mem (mem_sites.1 h1)
    simp only [Bool.and_eq_true, beq_iff_eq] at h2
    refine ⟨b, hb, op, hop, h2.1, ?_⟩
    have := h2.2
    cases hk : op.kind <;> rw [hk] at this <;> simp [isAlloca] at this
    exact ⟨_, rfl⟩
  · rintro ⟨b, hb, op, hop, hr, ty, hk⟩
    obtain ⟨i, hi⟩ := List.getElem?_of_mem hb
    obtain ⟨j, hj⟩ := List.getElem?_of_mem hop
    exact ⟨(op, ⟨i, j⟩), mem_sites.2 (opAt_some.2 ⟨b, hi, hj⟩), by simp [hr, hk, isAlloca]⟩

/-- The register is the result of a load or of a comparison. -/
def Mat (f : Body) (r : Nat) : Prop := ∃ d op, opAt f d = some op ∧ op.result = some r ∧ makesBool op.kind = true

theorem isMaterialized_iff (hs : SingleAssignment f) {r : Nat} : isMaterialized f r = true ↔ Mat f r := by
  unfold isMaterialized
  constructor
  · intro h
    split at h
    · rename_i op d hd
      obtain ⟨h1, h2⟩ := definition_some hd
      exact ⟨d, op, h1, h2, h⟩
    · cases h
  · rintro ⟨d, op, h1, h2, h3⟩
    rw [definition_of hs h1 h2]
    exact h3

/-! ### Cells -/

/-- The local is written once, at `store`, from the register `stored`, and otherwise only read as a whole. -/
structure Cell (f : Body) (cell stored : Nat) (store : Site) : Prop where
  alloca : IsAlloca f cell
  write : ∃ op, opAt f store = some op ∧ op.kind = .store ∧ op.operands[0]? = some (.register stored) ∧
    op.operands[1]? = some (.register cell)
  terms : ∀ b ∈ f, Value.register cell ∉ b.term.operands
  ops : ∀ d op i, opAt f d = some op → op.operands[i]? = some (.register cell) →
    (op.kind = .store ∧ i = 1 ∧ d = store) ∨ (makesBool op.kind = true ∧ i = 0)

theorem mem_writesOf {us : List Use} {s : Option (Nat × Site)} : s ∈ writesOf us ↔ Use.write s ∈ us := by
  unfold writesOf
  rw [List.mem_filterMap]
  constructor
  · rintro ⟨u, hu, h⟩
    cases u <;> simp at h
    subst h
    exact hu
  · intro h
    exact ⟨_, h, rfl⟩

theorem mem_uses_op {cell i : Nat} {d : Site} {op : Op} {u : Use} (h : opAt f d = some op)
    (hi : op.operands[i]? = some (.register cell)) (hu : operandUse cell op d (.register cell, i) = some u) :
    u ∈ uses f cell := by
  obtain ⟨blk, h1, h2⟩ := opAt_some.1 h
  unfold uses
  rw [List.mem_flatMap]
  refine ⟨(blk, d.block), BranchForward.mem_zipIdx.2 h1, ?_⟩
  unfold blockUses
  rw [List.mem_append]
  left
  rw [List.mem_flatMap]
  refine ⟨(op, d), ?_, ?_⟩
  · unfold blockSites
    rw [List.mem_map]
    exact ⟨(op, d.index), BranchForward.mem_zipIdx.2 h2, rfl⟩
  · unfold opUses
    rw [List.mem_filterMap]
    exact ⟨(.register cell, i), BranchForward.mem_zipIdx.2 hi, hu⟩

theorem uses_write {cell : Nat} {s : Option (Nat × Site)} (h : Use.write s ∈ uses f cell) :
    ∃ d op, opAt f d = some op ∧ op.kind = .store ∧ op.operands[1]? = some (.register cell) ∧
      s = (op.operands.head?.bind asRegister).map fun r => (r, d) := by
  unfold uses at h
  rw [List.mem_flatMap] at h
  obtain ⟨⟨blk, b⟩, h1, h2⟩ := h
  unfold blockUses at h2
  rw [List.mem_append] at h2
  rcases h2 with h2 | h2
  · rw [List.mem_flatMap] at h2
    obtain ⟨⟨op, d⟩, h3, h4⟩ := h2
    have hop : opAt f d = some op := mem_sites.1 (List.mem_flatMap.2 ⟨_, h1, h3⟩)
    unfold opUses at h4
    rw [List.mem_filterMap] at h4
    obtain ⟨⟨v, i⟩, h5, h6⟩ := h4
    unfold operandUse at h6
    split at h6
    · rename_i hv
      simp only [] at hv h6
      subst hv
      have h5 := BranchForward.mem_zipIdx.1 h5
      simp only [] at h5
      split at h6
      · rename_i hk
        split at h6
        · rename_i hi
          subst hi
          simp only [Option.some.injEq, Use.write.injEq] at h6
          exact ⟨d, op, hop, hk, h5, h6.symm⟩
        · cases h6
      · split at h6 <;> cases h6
      · split at h6 <;> cases h6
      · cases h6
    · cases h6
  · rw [List.mem_filterMap] at h2
    obtain ⟨v, _, h3⟩ := h2
    unfold termUse at h3
    split at h3 <;> simp at h3

theorem forwardable_cell {cell stored : Nat} {store : Site} (ha : IsAlloca f cell)
    (h : forwardable f cell = some (stored, store)) : Cell f cell stored store := by
  unfold forwardable at h
  split at h
  · cases h
  rename_i ho
  split at h
  rotate_left
  · cases h
  rename_i s hs
  subst h
  have hw : Use.write (some (stored, store)) ∈ uses f cell := mem_writesOf.1 (by rw [hs]; simp)
  have huniq : ∀ s, Use.write s ∈ uses f cell → s = some (stored, store) := by
    intro s hm
    have := mem_writesOf.2 hm
    rw [hs] at this
    simpa using this
  have hreg : ∀ {op : Op} {d d' : Site} {r : Nat}, (op.operands.head?.bind asRegister).map (fun r => (r, d)) = some (r, d') →
      op.operands[0]? = some (.register r) ∧ d = d' := by
    intro op d d' r h
    rw [Option.map_eq_some_iff] at h
    obtain ⟨a, h1, h2⟩ := h
    cases h2
    rw [Option.bind_eq_some_iff] at h1
    obtain ⟨v, h1, h2⟩ := h1
    rw [List.head?_eq_getElem?] at h1
    cases v <;> simp [asRegister] at h2
    subst h2
    exact ⟨h1, rfl⟩
  refine ⟨ha, ?_, ?_, ?_⟩
  · obtain ⟨d, op, h1, h2, h3, h4⟩ := uses_write hw
    obtain ⟨h5, rfl⟩ := hreg h4.symm
    exact ⟨op, h1, h2, h5, h3⟩
  · intro b hb hm
    apply ho
    obtain ⟨i, hi⟩ := List.getElem?_of_mem hb
    unfold uses
    rw [List.mem_flatMap]
    refine ⟨(b, i), BranchForward.mem_zipIdx.2 hi, ?_⟩
    unfold blockUses
    rw [List.mem_append]
    right
    rw [List.mem_filterMap]
    exact ⟨_, hm, by simp [termUse]⟩
  · intro d op i hop hi
    have hne : operandUse cell op d (.register cell, i) ≠ some .other := fun h => ho (mem_uses_op hop hi h)
    by_cases hst : op.kind = .store
    · left
      by_cases h1 : i = 1
      · refine ⟨hst, h1, ?_⟩
        have hu : operandUse cell op d (.register cell, i) =
            some (.write ((op.operands.head?.bind asRegister).map fun r => (r, d))) := by
          simp [operandUse, hst, h1]
        exact (hreg (huniq _ (mem_uses_op hop hi hu))).2
      · simp [operandUse, hst, h1] at hne
    · right
      unfold operandUse at hne
      simp only [if_true] at hne
      cases hkind : op.kind <;> rw [hkind] at hne <;> simp at hne
      · exact ⟨rfl, hne⟩
      · exact ⟨rfl, hne⟩
      · exact absurd hkind hst

/-! ### Order of program points -/

/-- Every execution which arrives at the point `p` has passed the point `d`: it is earlier in the same block, or its
block dominates the block of `p`. -/
def Before (f : Body) (d p : Site) : Prop :=
  (d.block = p.block ∧ d.index < p.index) ∨
  (d.block ≠ p.block ∧ ∀ path, IsPath (graphOf f) 0 p.block path → d.block ∈ path)

theorem before_iff {d p : Site} : Before f d p ↔ (d.block = p.block ∧ d.index < p.index) ∨
    (d.block ≠ p.block ∧ DomW (graphOf f) 0 p.block d.block) := by
  unfold Before
  rw [domW_iff]
  rfl

theorem before_irrefl (d : Site) : ¬ Before f d d := by
  rintro (⟨_, h⟩ | ⟨h, _⟩)
  · omega
  · exact h rfl

theorem before_trans (hr : AllReachable f) {a b c : Site} (hc : c.block < f.length) (h1 : Before f a b)
    (h2 : Before f b c) : Before f a c := by
  rw [before_iff] at h1 h2 ⊢
  rcases h1 with ⟨h1, h1'⟩ | ⟨h1, h1'⟩ <;> rcases h2 with ⟨h2, h2'⟩ | ⟨h2, h2'⟩
  · exact Or.inl ⟨h1.trans h2, by omega⟩
  · right; rw [h1]; exact ⟨h2, h2'⟩
  · right; rw [← h2]; exact ⟨h1, h1'⟩
  · right
    refine ⟨fun hac => ?_, dom_trans h1' h2'⟩
    rw [hac] at h1 h1'
    exact h1 (dom_antisymm (reach_graphOf.2 (hr _ hc)) h2' h1').symm.symm

/-- Going back over an operation. -/
theorem before_op {d : Site} {b i : Nat} (h : Before f d ⟨b, i + 1⟩) : d = ⟨b, i⟩ ∨ Before f d ⟨b, i⟩ := by
  rcases h with ⟨h1, h2⟩ | ⟨h1, h2⟩
  · simp only [] at h1 h2
    rcases Nat.lt_succ_iff_lt_or_eq.1 h2 with h3 | h3
    · exact Or.inr (Or.inl ⟨h1, h3⟩)
    · left
      cases d
      simp only [] at h1 h3
      subst h1; subst h3; rfl
  · exact Or.inr (Or.inr ⟨h1, h2⟩)

/-- Going back over a jump. -/
theorem before_jump {d : Site} {op : Op} {b b' : Nat} {blk : Block} (hd : opAt f d = some op) (hb : f[b]? = some blk)
    (he : b' ∈ blk.term.successors) (h : Before f d ⟨b', 0⟩) : Before f d ⟨b, blk.ops.length⟩ := by
  rw [before_iff] at h ⊢
  rcases h with ⟨_, h2⟩ | ⟨h1, h2⟩
  · simp at h2
  · have h3 := dom_pred h1 h2 (edge_graphOf.2 ⟨blk, hb, he⟩)
    by_cases hbd : d.block = b
    · left
      refine ⟨hbd, ?_⟩
      obtain ⟨blk', h4, h5⟩ := opAt_some.1 hd
      rw [hbd, hb] at h4
      cases h4
      exact (List.getElem?_eq_some_iff.1 h5).1
    · exact Or.inr ⟨hbd, h3⟩

theorem not_before_start {d : Site} : ¬ Before f d ⟨0, 0⟩ := by
  rw [before_iff]
  rintro (⟨_, h⟩ | ⟨h1, h2⟩)
  · simp at h
  · exact h1 (dom_entry h2)

end Ferlium.Negation
