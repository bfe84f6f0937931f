import Verif.Proofs.GraphCycle
import Verif.Proofs.GraphTopo

/-!
C23 (recursive groups and their order), C24 (import cycles), C25 (reverse postorder).

The vocabulary (`Edge`, `Reach`, `Mutual`, `IsCycle`, `WF`) is defined in `Verif/Proofs/Graph.lean`,
`GraphScc.lean` and `GraphCycle.lean` from the adjacency lists alone, without any of the algorithms.
`WF g` says that no neighbour list mentions a node outside the graph; the callers build their graphs that way and
the code would panic otherwise.
-/
namespace Ferlium.Graph

/-! ### Small graphs used as non-trivial instances -/

/-- 0→1→2→0 with 2→3, 3→3 and an isolated 4. -/
def demo : Gr := [[1], [2], [0, 3], [3], []]

theorem wf_of_bound {g : Gr} (h : ∀ l ∈ g, ∀ v ∈ l, v < g.length) : WF g := by
  rintro u v ⟨l, hl, hv⟩
  exact h l (List.mem_of_getElem? hl) v hv

theorem demo_wf : WF demo := wf_of_bound (by decide)

/-! ### C23 -/

/-- Every definition is in exactly one group, and two definitions are in one group exactly when each can reach the
other. -/
theorem C23_groups_are_the_mutual_recursion_classes (g : Gr) (hg : WF g) :
    ∃ sccs, findSccs g = some sccs ∧ sccs.flatten.Perm (List.range g.length) ∧ (∀ c ∈ sccs, c ≠ []) ∧
      ∀ c ∈ sccs, ∀ u ∈ c, ∀ w, w ∈ c ↔ Mutual g u w := by
  obtain ⟨sccs, h1, h2⟩ := findSccs_spec hg
  refine ⟨sccs, h1, ?_, fun c hc => (h2.comp c hc).1, fun c hc => (h2.comp c hc).2⟩
  rw [List.perm_ext_iff_of_nodup h2.nodup List.nodup_range]
  intro v; rw [h2.cover, List.mem_range]

example : WF demo ∧ Mutual demo 0 2 ∧ ¬ Mutual demo 2 3 := by
  refine ⟨demo_wf, ⟨?_, ?_⟩, ?_⟩
  · exact reach_trans (reach_edge (u := 0) (v := 1) ⟨[1], rfl, by simp⟩) (reach_edge ⟨[2], rfl, by simp⟩)
  · exact reach_edge ⟨[0, 3], rfl, by simp⟩
  · rintro ⟨-, h⟩
    have : ∀ u v, Reach demo u v → u = 3 → v = 3 := by
      intro u v h hu
      induction h with
      | refl => exact hu
      | tail _ he ih =>
        subst ih
        obtain ⟨l, hl, hv⟩ := he
        simp only [demo, List.getElem?_cons_succ, List.getElem?_cons_zero, Option.some.injEq] at hl
        subst hl; simpa using hv
    exact absurd (this 3 2 h rfl) (by decide)

/-- The sorted groups are the same groups, and a group only uses definitions of its own or of later groups. -/
theorem C23_callers_first (g : Gr) (hg : WF g) (order : List Nat → List Nat) (horder : ∀ l, (order l).Perm l) :
    ∃ sccs r, findSccs g = some sccs ∧ topologicalSortSccs order g sccs = some r ∧ r.Perm sccs ∧
      ∀ A c B, r = A ++ c :: B → ∀ u ∈ c, ∀ w, Edge g u w → w ∈ c ∨ w ∈ B.flatten := by
  obtain ⟨sccs, h1, h2⟩ := findSccs_spec hg
  obtain ⟨r, h3, h4, h5⟩ := topo_spec hg h2 horder
  exact ⟨sccs, r, h1, h3, h4, h5⟩

/-- The order every client processes definitions in: each definition exactly once, the groups are the classes of
mutual recursion, and when a group is processed everything it uses outside itself has been processed — directly
and, consequently, transitively. -/
theorem C23_callees_first (g : Gr) (hg : WF g) (order : List Nat → List Nat) (horder : ∀ l, (order l).Perm l) :
    ∃ r, componentsCalleesFirst order g = some r ∧ r.flatten.Perm (List.range g.length) ∧
      (∀ c ∈ r, c ≠ [] ∧ ∀ u ∈ c, ∀ w, w ∈ c ↔ Mutual g u w) ∧
      ∀ A c B, r = A ++ c :: B → ∀ u ∈ c, ∀ w, Reach g u w → w ∈ c ∨ w ∈ A.flatten := by
  obtain ⟨sccs, h1, h2⟩ := findSccs_spec hg
  obtain ⟨r, h3, h4, h5⟩ := topo_spec hg h2 horder
  have hperm : r.reverse.Perm sccs := r.reverse_perm.trans h4
  have hedge : ∀ A c B, r.reverse = A ++ c :: B → ∀ u ∈ c, ∀ w, Edge g u w → w ∈ c ∨ w ∈ A.flatten := by
    intro A c B hAB u hu w he
    have hr : r = B.reverse ++ c :: A.reverse := by
      rw [← List.reverse_reverse r, hAB]; simp
    rcases h5 B.reverse c A.reverse hr u hu w he with h | h
    · exact Or.inl h
    · right
      obtain ⟨d, hd, hw⟩ := List.mem_flatten.1 h
      exact List.mem_flatten.2 ⟨d, List.mem_reverse.1 hd, hw⟩
  refine ⟨r.reverse, by simp [componentsCalleesFirst, h1, h3], ?_, ?_, ?_⟩
  · refine hperm.flatten.trans ?_
    rw [List.perm_ext_iff_of_nodup h2.nodup List.nodup_range]
    intro v; rw [h2.cover, List.mem_range]
  · intro c hc; exact h2.comp c (hperm.mem_iff.1 hc)
  · intro A c B hAB u hu w hr
    induction hr with
    | refl => exact Or.inl hu
    | tail _ he ih =>
      rcases ih with ih | ih
      · exact hedge A c B hAB _ ih _ he
      · right
        obtain ⟨d, hd, hx⟩ := List.mem_flatten.1 ih
        obtain ⟨P, Q, rfl⟩ := List.append_of_mem hd
        rcases hedge P d (Q ++ c :: B) (by simp [hAB]) _ hx _ he with h | h
        · exact List.mem_flatten.2 ⟨d, by simp, h⟩
        · simp only [List.flatten_append, List.mem_append]; exact Or.inl h

/-- The hash-set order parameter is satisfiable by the identity and by reversal. -/
example : (∀ l : List Nat, (id l).Perm l) ∧ (∀ l : List Nat, l.reverse.Perm l) :=
  ⟨fun l => List.Perm.refl l, fun l => l.reverse_perm⟩

/-- A group is flagged recursive exactly when its members can (directly or indirectly) call themselves. -/
theorem C23_recursive_flag (g : Gr) (hg : WF g) (sccs : List (List Nat)) (hs : findSccs g = some sccs) :
    ∀ c ∈ sccs, ∀ u ∈ c, (isRecursiveGroup g c = true ↔ Relation.TransGen (Edge g) u u) := by
  obtain ⟨sccs', h1, h2⟩ := findSccs_spec hg
  rw [hs] at h1; cases h1
  intro c hc u hu
  have hcomp := (h2.comp c hc).2
  have hnd : c.Nodup := (List.nodup_flatten.1 h2.nodup).1 c hc
  cases c with
  | nil => simp at hu
  | cons a l =>
    cases l with
    | nil =>
      simp only [List.mem_singleton] at hu
      subst hu
      have hul : u < g.length := (h2.cover u).1 (List.mem_flatten.2 ⟨_, hc, by simp⟩)
      have hiff : isRecursiveGroup g [u] = true ↔ Edge g u u := by
        simp only [isRecursiveGroup, List.length_singleton, List.head?_cons, Edge, List.getElem?_eq_getElem hul]
        simp
      rw [hiff]
      constructor
      · exact Relation.TransGen.single
      · intro h
        obtain ⟨x, h3, h4⟩ := Relation.TransGen.tail'_iff.1 h
        have : x ∈ [u] := (hcomp u (by simp) x).2 ⟨h3, reach_edge h4⟩
        simp at this; subst this; exact h4
    | cons b l =>
      simp only [isRecursiveGroup, List.length_cons]
      simp only [gt_iff_lt, show 1 < l.length + 1 + 1 by omega, decide_true, Bool.true_or, true_iff]
      obtain ⟨w, hw, hne⟩ : ∃ w ∈ a :: b :: l, u ≠ w := by
        by_cases h : u = a
        · refine ⟨b, by simp, ?_⟩
          rintro rfl
          subst h; simp at hnd
        · exact ⟨a, by simp, h⟩
      obtain ⟨h3, h4⟩ := (hcomp u hu w).1 hw
      rcases Relation.reflTransGen_iff_eq_or_transGen.1 h3 with h5 | h5
      · exact absurd h5.symm hne
      · exact h5.trans_left h4

example : ∃ sccs, findSccs demo = some sccs := let ⟨s, h, _⟩ := C23_groups_are_the_mutual_recursion_classes demo demo_wf; ⟨s, h⟩

/-! ### C24 -/

/-- The search always ends; it reports a genuine cycle reachable from the start, and reports one exactly when one
exists. -/
theorem C24_cycle_search_exact (g : Gr) (hg : WF g) (start : Nat) (hs : start < g.length) :
    ∃ r, findCycleFrom g start = some r ∧
      (∀ c, r = some c → IsCycle g c ∧ ∀ v ∈ c, Reach g start v) ∧
      (r.isSome = true ↔ ∃ v, Reach g start v ∧ Relation.TransGen (Edge g) v v) := by
  obtain ⟨r, h1, h2, h3⟩ := findCycleFrom_spec hg hs
  refine ⟨r, h1, h2, ?_⟩
  cases r with
  | none => simpa using h3 rfl
  | some c =>
    simp only [Option.isSome_some, true_iff]
    obtain ⟨h4, h5⟩ := h2 c rfl
    obtain ⟨v, hv, hc⟩ := isCycle_trans h4
    exact ⟨v, h5 v hv, hc⟩

example : WF demo ∧ 0 < demo.length ∧ IsCycle demo [0, 1, 2] := by
  refine ⟨demo_wf, by decide, by decide, by decide, ?_, ?_⟩
  · simp only [List.isChain_cons_cons, List.isChain_singleton, and_true]
    exact ⟨⟨[1], rfl, by simp⟩, ⟨[2], rfl, by simp⟩⟩
  · intro a b ha hb
    simp at ha hb
    subst ha; subst hb
    exact ⟨[0, 3], rfl, by simp⟩

/-! ### C25 -/

/-- The order lists exactly the reachable nodes, each once, starting with the entry; a node comes before each of its
successors unless that successor leads back to it; and every node but the entry comes after one of its
predecessors. -/
theorem C25_reverse_postorder (g : Gr) (hg : WF g) (entry : Nat) (he : entry < g.length) :
    ∃ r, reversePostorder g entry = some r ∧ r.Nodup ∧ (∀ v, v ∈ r ↔ Reach g entry v) ∧ r.head? = some entry ∧
      (∀ A u B, r = A ++ u :: B → ∀ v, Edge g u v → v ∈ B ∨ Reach g v u) ∧
      (∀ A u B, r = A ++ u :: B → u ≠ entry → ∃ p ∈ A, Edge g p u) :=
  rpo_final hg he

/-- In an acyclic graph the order is a topological order of the reachable part. -/
theorem C25_acyclic_is_topological (g : Gr) (hg : WF g) (entry : Nat) (he : entry < g.length)
    (hac : ¬ ∃ v, Reach g entry v ∧ Relation.TransGen (Edge g) v v) :
    ∃ r, reversePostorder g entry = some r ∧ ∀ A u B, r = A ++ u :: B → ∀ v, Edge g u v → v ∈ B := by
  obtain ⟨r, h1, -, h3, -, h5, -⟩ := C25_reverse_postorder g hg entry he
  refine ⟨r, h1, ?_⟩
  intro A u B hAB v hv
  rcases h5 A u B hAB v hv with h | h
  · exact h
  · exact absurd ⟨u, (h3 u).1 (by rw [hAB]; simp), Relation.TransGen.head' hv h⟩ hac

example : WF demo ∧ 2 < demo.length := ⟨demo_wf, by decide⟩
/-- A graph meeting the acyclicity hypothesis. -/
example : ¬ ∃ v, Reach [[1, 2], [2], []] 0 v ∧ Relation.TransGen (Edge [[1, 2], [2], []]) v v := by
  rintro ⟨v, -, h⟩
  have : ∀ u w, Relation.TransGen (Edge [[1, 2], [2], []]) u w → u < w := by
    intro u w h
    have hs : ∀ a b, Edge [[1, 2], [2], []] a b → a < b := by
      rintro a b ⟨l, hl, hb⟩
      match a with
      | 0 => simp at hl; subst hl; simp at hb; omega
      | 1 => simp at hl; subst hl; simp at hb; omega
      | 2 => simp at hl; subst hl; simp at hb
      | a + 3 => simp at hl
    induction h with
    | single h => exact hs _ _ h
    | tail _ h ih => exact ih.trans (hs _ _ h)
  exact absurd (this v v h) (by omega)

end Ferlium.Graph
