import Verif.Proofs.DominanceTree
import Verif.Props.Graph

/-!
C26: dominance is exact.  The specification only speaks of paths: lists of nodes starting at the entry, ending at the
node, each connected to the next by an edge.
-/
namespace Ferlium.Dominance

open Ferlium.Graph

/-- `p` is an execution path from the entry to `n`. -/
def IsPath (g : Gr) (entry n : Nat) (p : List Nat) : Prop :=
  p.head? = some entry ∧ p.getLast? = some n ∧ p.IsChain (Edge g)

/-- Every execution path from the entry to `n` passes through `d`. -/
def Dominates (g : Gr) (entry d n : Nat) : Prop := ∀ p, IsPath g entry n p → d ∈ p

theorem walk_isPath {g : Gr} {entry n : Nat} {S : List Nat} (h : Walk g entry n S) : IsPath g entry n S.reverse := by
  induction h with
  | start => simp [IsPath]
  | @step p n S hw he ih =>
    obtain ⟨h1, h2, h3⟩ := ih
    refine ⟨?_, by simp, ?_⟩
    · rw [List.reverse_cons, List.head?_append, h1]; rfl
    · rw [List.reverse_cons, List.isChain_append]
      refine ⟨h3, by simp, ?_⟩
      intro a ha b hb
      rw [h2] at ha
      simp at ha hb
      subst ha; subst hb; exact he

theorem isPath_walk {g : Gr} {entry : Nat} : ∀ (p : List Nat) (n : Nat), IsPath g entry n p → Walk g entry n p.reverse := by
  intro p
  induction p using List.reverseRecOn with
  | nil => intro n h; simp [IsPath] at h
  | append_singleton l a ih =>
    rintro n ⟨h1, h2, h3⟩
    simp at h2; subst h2
    cases l using List.reverseRecOn with
    | nil => simp at h1; subst h1; exact .start
    | append_singleton l b =>
      rw [List.isChain_append] at h3
      have hb : Walk g entry b (l ++ [b]).reverse := by
        refine ih b ⟨?_, by simp, h3.1⟩
        rw [List.head?_append] at h1
        cases hl : (l ++ [b]).head? with
        | none => simp at hl
        | some c => rw [hl] at h1; simpa using h1
      rw [List.reverse_append]
      exact hb.step (h3.2.2 b (by simp) a (by simp))

theorem domW_iff {g : Gr} {entry n d : Nat} : DomW g entry n d ↔ Dominates g entry d n := by
  constructor
  · intro h p hp
    simpa using h _ (isPath_walk p n hp)
  · intro h S hS
    simpa using h _ (walk_isPath hS)

/-- The computation always succeeds, and a dominance query between two nodes answers `true` exactly when the used node
is reachable and every execution path to it passes through the definition. -/
theorem C26_dominance_exact (g : Gr) (hg : WF g) (entry : Nat) (he : entry < g.length) :
    ∃ dom, compute g entry = some dom ∧ ∀ d u, d < g.length → u < g.length →
      ∃ r, dom.dominates d u = some r ∧ (r = true ↔ Reach g entry u ∧ Dominates g entry d u) := by
  obtain ⟨dom, I, idx, time, h1, hT, hk, h2, h3, h4, h5, h6, hS⟩ := compute_spec hg he
  refine ⟨dom, h1, ?_⟩
  have hun : ∀ x, x < g.length → ¬ Reach g entry x → dom.preorder[x]? = some none ∧ dom.postorder[x]? = some none := by
    intro x hx hr
    obtain ⟨e1, e2⟩ := hS.outside x hr
    simp only [pr, po, List.getElem?_replicate, hx, if_true, Option.join_some] at e1 e2
    rw [List.getElem?_eq_getElem (by rw [h3]; exact hx)] at e1 ⊢
    rw [List.getElem?_eq_getElem (by rw [h4]; exact hx)] at e2 ⊢
    simp only [Option.join_some] at e1 e2
    rw [e1, e2]; exact ⟨rfl, rfl⟩
  have hre : ∀ x, x < g.length → Reach g entry x → ∃ a b, dom.preorder[x]? = some (some a) ∧ dom.postorder[x]? = some (some b) ∧
      pr ⟨dom.preorder, dom.postorder, time⟩ x = some a ∧ po ⟨dom.preorder, dom.postorder, time⟩ x = some b := by
    intro x hx hr
    obtain ⟨a, b, e1, e2, -⟩ := hS.inside x hr
    refine ⟨a, b, ?_, ?_, e1, e2⟩
    · simp only [pr] at e1
      rw [List.getElem?_eq_getElem (by rw [h3]; exact hx)] at e1 ⊢
      simpa using e1
    · simp only [po] at e2
      rw [List.getElem?_eq_getElem (by rw [h4]; exact hx)] at e2 ⊢
      simpa using e2
  intro d u hd hu
  by_cases hdr : Reach g entry d <;> by_cases hur : Reach g entry u
  · obtain ⟨a, b, e1, e2, e3, e4⟩ := hre d hd hdr
    obtain ⟨a', b', e1', e2', e3', e4'⟩ := hre u hu hur
    refine ⟨_, by simp only [Dom.dominates, e1, e1', e2, e2']; rfl, ?_⟩
    rw [← domW_iff, ← h5 u d hur, hS.nest d u hdr hur a b a' b' e3 e4 e3' e4']
    simp [hur]
  · obtain ⟨a, b, e1, e2, -⟩ := hre d hd hdr
    obtain ⟨f1, f2⟩ := hun u hu hur
    exact ⟨false, by simp [Dom.dominates, e1, e2, f1, f2], by simp [hur]⟩
  · obtain ⟨a, b, e1, e2, -⟩ := hre u hu hur
    obtain ⟨f1, f2⟩ := hun d hd hdr
    refine ⟨false, by simp [Dom.dominates, e1, e2, f1, f2], ?_⟩
    simp only [Bool.false_eq_true, false_iff, not_and]
    intro _ hc
    rw [← domW_iff, ← h5 u d hur] at hc
    exact hdr (hT.reach (hT.anc_known (hk u hur) hc))
  · obtain ⟨f1, f2⟩ := hun d hd hdr
    obtain ⟨f3, f4⟩ := hun u hu hur
    exact ⟨false, by simp [Dom.dominates, f1, f2, f3, f4], by simp [hur]⟩

/-- `is_reachable` answers exactly reachability from the entry. -/
theorem C26_reachability_exact (g : Gr) (hg : WF g) (entry : Nat) (he : entry < g.length) :
    ∃ dom, compute g entry = some dom ∧ ∀ x, x < g.length →
      ∃ r, dom.isReachable x = some r ∧ (r = true ↔ Reach g entry x) := by
  obtain ⟨dom, I, idx, time, h1, hT, hk, h2, h3, h4, h5, h6, hS⟩ := compute_spec hg he
  refine ⟨dom, h1, ?_⟩
  intro x hx
  have hg' : dom.preorder[x]? = some dom.preorder[x] := List.getElem?_eq_getElem (by rw [h3]; exact hx)
  refine ⟨dom.preorder[x].isSome, by simp [Dom.isReachable, hg'], ?_⟩
  by_cases hr : Reach g entry x
  · obtain ⟨a, b, e1, -⟩ := hS.inside x hr
    simp only [pr, hg', Option.join_some] at e1
    simp [e1, hr]
  · obtain ⟨e1, -⟩ := hS.outside x hr
    simp only [pr, hg', List.getElem?_replicate, hx, if_true, Option.join_some] at e1
    simp [e1, hr]

/-- The children of a node are, without repetition, exactly the nodes whose closest strict dominator it is. -/
theorem C26_children_are_immediately_dominated (g : Gr) (hg : WF g) (entry : Nat) (he : entry < g.length) :
    ∃ dom, compute g entry = some dom ∧ ∀ d, d < g.length → ∃ l, dom.children[d]? = some l ∧ l.Nodup ∧
      ∀ c, c ∈ l ↔ Reach g entry c ∧ d ≠ c ∧ Dominates g entry d c ∧
        ∀ x, x ≠ c → Dominates g entry x c → Dominates g entry x d := by
  obtain ⟨dom, I, idx, time, h1, hT, hk, h2, h3, h4, h5, h6, hS⟩ := compute_spec hg he
  refine ⟨dom, h1, ?_⟩
  intro d hd
  have hl : dom.children[d]? = some dom.children[d] := List.getElem?_eq_getElem (by rw [h2]; exact hd)
  obtain ⟨hnd, hmem⟩ := h6 d _ hl
  refine ⟨_, hl, hnd, ?_⟩
  intro c
  rw [hmem c]
  simp only [← domW_iff]
  constructor
  · rintro ⟨hce, hcd⟩
    obtain ⟨hcR, hdk, hlt⟩ := hT.par c d hcd
    have hlt := hlt hce
    have hdR := hT.reach hdk
    refine ⟨hcR, by rintro rfl; omega, (h5 c d hcR).1 (anc_head hce hcd (anc_refl _ _)), ?_⟩
    intro x hx hxc
    rw [← h5 c x hcR] at hxc
    rcases anc_cases hxc with h | ⟨p, -, hp, h⟩
    · exact absurd h hx
    · rw [hcd] at hp; cases hp; exact (h5 d x hdR).1 h
  · rintro ⟨hcR, hne, hdc, hall⟩
    have hanc := (h5 c d hcR).2 hdc
    rcases anc_cases hanc with h | ⟨p, hce, hp, h⟩
    · exact absurd h hne
    · refine ⟨hce, ?_⟩
      have hdR := hT.reach (hT.anc_known (hk c hcR) hanc)
      obtain ⟨-, -, hlt⟩ := hT.par c p hp
      have hlt := hlt hce
      have := hall p (by rintro rfl; omega) ((h5 c p hcR).1 (anc_head hce hp (anc_refl _ _)))
      rw [hp, hT.anc_eq h ((h5 d p hdR).2 this)]

/-- A loop with an exit and an unreachable node: 0→1, 1→2, 2→1, 2→3; 4→3.  Block 1 dominates 3. -/
example : WF [[1], [2], [1, 3], [], [3]] ∧ Dominates [[1], [2], [1, 3], [], [3]] 0 1 3 := by
  refine ⟨wf_of_bound (by decide), ?_⟩
  rintro p ⟨h1, h2, h3⟩
  match p, h1, h2, h3 with
  | [], h1, _, _ => simp at h1
  | [a], h1, h2, _ => simp at h1 h2; omega
  | a :: b :: l, h1, _, h3 =>
    simp at h1; subst h1
    rw [List.isChain_cons_cons] at h3
    obtain ⟨⟨l', hl, hb⟩, -⟩ := h3
    simp at hl; subst hl; simp at hb; subst hb; simp

end Ferlium.Dominance
