import Verif.Model.Graph
import Mathlib.Tactic

/-! Lemmas about depth-first traversal. -/
namespace Ferlium.Graph

/-- There is an edge from `u` to `v`. -/
def Edge (g : Gr) (u v : Nat) : Prop := ∃ l, g[u]? = some l ∧ v ∈ l

/-- `v` can be reached from `u` along edges. -/
def Reach (g : Gr) : Nat → Nat → Prop := Relation.ReflTransGen (Edge g)

/-- Every edge leads to a node of the graph. -/
def WF (g : Gr) : Prop := ∀ u v, Edge g u v → v < g.length

/-- Out-degree. -/
def deg (g : Gr) (v : Nat) : Nat := ((g[v]?).getD []).length

theorem reach_refl (g : Gr) (u : Nat) : Reach g u u := Relation.ReflTransGen.refl
theorem reach_edge {g : Gr} {u v : Nat} (h : Edge g u v) : Reach g u v := Relation.ReflTransGen.single h
theorem reach_trans {g : Gr} {u v w : Nat} (h1 : Reach g u v) (h2 : Reach g v w) : Reach g u w := h1.trans h2

theorem edge_lt {g : Gr} {u v : Nat} (h : Edge g u v) : u < g.length := by
  obtain ⟨l, hl, -⟩ := h
  exact (List.getElem?_eq_some_iff.1 hl).1

/-- Weight of the nodes not yet visited. -/
def unvis : List Bool → Gr → Nat
  | b :: bs, l :: ls => (if b then 0 else l.length + 2) + unvis bs ls
  | _, _ => 0

theorem unvis_set {vis : List Bool} {g : Gr} {s : Nat} {l : List Nat} (hv : vis[s]? = some false)
    (hg : g[s]? = some l) : unvis (vis.set s true) g + (l.length + 2) = unvis vis g := by
  induction vis generalizing g s with
  | nil => simp at hv
  | cons b bs ih =>
    cases g with
    | nil => simp at hg
    | cons m ls =>
      cases s with
      | zero => simp at hv hg; subst hv; subst hg; simp [unvis]; omega
      | succ s =>
        simp at hv hg
        simp only [List.set_cons_succ, unvis]
        have := ih hv hg
        omega

/-- Work left in the frames of the stack. -/
def frames (g : Gr) (stack : List (Nat × Nat)) : Nat := (stack.map (fun f => deg g f.1 - f.2 + 1)).sum

/-! ### Reverse postorder -/

structure RInv (g : Gr) (entry : Nat) (vis : List Bool) (post : List Nat) (stack : List (Nat × Nat)) : Prop where
  len : vis.length = g.length
  vis : ∀ v, vis[v]? = some true ↔ v ∈ stack.map Prod.fst ++ post
  nodup : (stack.map Prod.fst ++ post).Nodup
  reach : ∀ v ∈ stack.map Prod.fst ++ post, Reach g entry v
  chain : stack.IsChain (fun a b => Edge g b.1 a.1)
  seen : ∀ u k, (u, k) ∈ stack → ∀ l, g[u]? = some l → ∀ j v, j < k → l[j]? = some v → v ∈ stack.map Prod.fst ++ post
  succ : ∀ u ∈ post, ∀ v, Edge g u v → v ∈ stack.map Prod.fst ++ post
  order : ∀ A u B, post = A ++ u :: B → ∀ v, Edge g u v → v ∈ A ∨ Reach g v u
  parent : ∀ A u B, post = A ++ u :: B → u ≠ entry → ∃ p, Edge g p u ∧ (p ∈ B ∨ p ∈ stack.map Prod.fst)
  bottom : ((stack.map Prod.fst).reverse ++ post.reverse).head? = some entry

theorem chain_reach {g : Gr} {stack : List (Nat × Nat)} {top : Nat × Nat} {rest : List (Nat × Nat)}
    (h : stack.IsChain (fun a b => Edge g b.1 a.1)) (hs : stack = top :: rest) :
    ∀ f ∈ stack, Reach g f.1 top.1 := by
  induction stack generalizing top rest with
  | nil => simp at hs
  | cons a s ih =>
    cases hs
    intro f hf
    rcases List.mem_cons.1 hf with rfl | hf
    · exact reach_refl _ _
    · cases s with
      | nil => simp at hf
      | cons b s =>
        rw [List.isChain_cons_cons] at h
        exact reach_trans (ih h.2 rfl f hf) (reach_edge h.1)

/-- What the traversal delivers, in terms of the vector before the final reversal. -/
structure RPost (g : Gr) (entry : Nat) (post : List Nat) : Prop where
  nodup : post.Nodup
  mem : ∀ v, v ∈ post ↔ Reach g entry v
  first : post.reverse.head? = some entry
  order : ∀ A u B, post = A ++ u :: B → ∀ v, Edge g u v → v ∈ A ∨ Reach g v u
  parent : ∀ A u B, post = A ++ u :: B → u ≠ entry → ∃ p ∈ B, Edge g p u

theorem append_singleton_eq {α : Type} {l A B : List α} {x u : α} (h : l ++ [x] = A ++ u :: B) :
    (B = [] ∧ A = l ∧ u = x) ∨ ∃ B', B = B' ++ [x] ∧ l = A ++ u :: B' := by
  rcases List.eq_nil_or_concat B with rfl | ⟨B', y, rfl⟩
  · left
    have := List.append_inj' h rfl
    simp at this
    exact ⟨rfl, this.1.symm, this.2.symm⟩
  · right
    rw [List.concat_eq_append] at h ⊢
    have h' : l ++ [x] = (A ++ u :: B') ++ [y] := by simpa using h
    have := List.append_inj' h' rfl
    simp at this
    exact ⟨B', by simp [this.2], this.1⟩

theorem rpo_spec {g : Gr} (hg : WF g) {entry : Nat} :
    ∀ (n : Nat) (vis : List Bool) (post : List Nat) (stack : List (Nat × Nat)),
      unvis vis g + frames g stack = n → RInv g entry vis post stack →
      ∃ r, rpoLoop g vis post stack = some r ∧ RPost g entry r := by
  intro n
  induction n using Nat.strong_induction_on with
  | _ n ih =>
    intro vis post stack hn h
    cases stack with
    | nil =>
      refine ⟨post, by rw [rpoLoop], ?_⟩
      have hb := h.bottom
      simp at hb
      refine ⟨by simpa using h.nodup, ?_, by simpa using hb, h.order, ?_⟩
      · intro v
        constructor
        · intro hv; exact h.reach v (by simpa using hv)
        · intro hv
          induction hv with
          | refl =>
            exact List.mem_of_getLast? hb
          | tail _ he ihv => simpa using h.succ _ ihv _ he
      · intro A u B hp hu
        obtain ⟨p, hp1, hp2⟩ := h.parent A u B hp hu
        simp at hp2
        exact ⟨p, hp2, hp1⟩
    | cons f rest =>
      obtain ⟨node, next⟩ := f
      have hnode : vis[node]? = some true := (h.vis node).2 (by simp)
      have hlt : node < g.length := by rw [← h.len]; exact (List.getElem?_eq_some_iff.1 hnode).1
      obtain ⟨succs, hsuccs⟩ : ∃ l, g[node]? = some l := ⟨g[node], List.getElem?_eq_getElem hlt⟩
      have hdeg : deg g node = succs.length := by simp [deg, hsuccs]
      rw [rpoLoop]
      simp only [hsuccs]
      cases hs : succs[next]? with
      | some s =>
        have hedge : Edge g node s := ⟨succs, hsuccs, List.mem_of_getElem? hs⟩
        have hnl : next < succs.length := (List.getElem?_eq_some_iff.1 hs).1
        have hslt : s < vis.length := by rw [h.len]; exact hg _ _ hedge
        simp only
        cases hvs : vis[s]? with
        | none => rw [List.getElem?_eq_none_iff] at hvs; omega
        | some b =>
          cases b with
          | true =>
            simp only
            refine ih _ ?_ vis post _ rfl ?_
            · rw [← hn]; simp only [frames, List.map_cons, List.sum_cons, hdeg]; omega
            · have hmem := (h.vis s).1 hvs
              refine ⟨h.len, h.vis, h.nodup, h.reach, ?_, ?_, h.succ, h.order, h.parent, h.bottom⟩
              · have := h.chain
                cases rest with
                | nil => simp
                | cons b rest => rw [List.isChain_cons_cons] at this ⊢; exact this
              · intro u k hm l hl j v hj hv
                rcases List.mem_cons.1 hm with heq | hm
                · simp only [Prod.mk.injEq] at heq
                  obtain ⟨rfl, rfl⟩ := heq
                  rw [hsuccs] at hl; cases hl
                  by_cases hjn : j = next
                  · subst hjn; rw [hs] at hv; cases hv; exact hmem
                  · exact h.seen u next (by simp) _ hsuccs j v (by omega) hv
                · exact h.seen u k (by simp [hm]) l hl j v hj hv
          | false =>
            simp only
            obtain ⟨sl, hsl⟩ : ∃ l, g[s]? = some l :=
              ⟨_, List.getElem?_eq_getElem (show s < g.length by rw [← h.len]; exact hslt)⟩
            have hnew : s ∉ (node :: rest.map Prod.fst) ++ post := by
              intro hc
              rw [(h.vis s).2 hc] at hvs; simp at hvs
            refine ih _ ?_ _ post _ rfl ?_
            · have := unvis_set hvs hsl
              have hd2 : deg g s = sl.length := by simp [deg, hsl]
              rw [← hn]; simp only [frames, List.map_cons, List.sum_cons, hdeg, hd2]; omega
            · refine ⟨by simp [h.len], ?_, ?_, ?_, ?_, ?_, ?_, h.order, ?_, ?_⟩
              · intro v
                rw [List.getElem?_set]
                by_cases hvs' : s = v
                · subst hvs'; simp [hslt]
                · have := h.vis v
                  simp only [hvs', if_false, this]
                  simp [Ne.symm hvs']
              · simp only [List.map_cons, List.cons_append, List.nodup_cons] at hnew ⊢
                have := h.nodup
                simp only [List.map_cons, List.cons_append, List.nodup_cons] at this
                exact ⟨hnew, this⟩
              · intro v hv
                simp only [List.map_cons, List.cons_append, List.mem_cons] at hv
                rcases hv with rfl | hv
                · exact reach_trans (h.reach node (by simp)) (reach_edge hedge)
                · exact h.reach v (by simpa using hv)
              · rw [List.isChain_cons_cons]
                refine ⟨hedge, ?_⟩
                have := h.chain
                cases rest with
                | nil => simp
                | cons b rest => rw [List.isChain_cons_cons] at this ⊢; exact this
              · intro u k hm l hl j v hj hv
                have hold : v ∈ (node :: rest.map Prod.fst) ++ post → v ∈ ((s, 0) :: (node, next + 1) :: rest).map Prod.fst ++ post := by
                  intro hc; simp only [List.map_cons, List.cons_append, List.mem_cons] at hc ⊢; exact Or.inr hc
                rcases List.mem_cons.1 hm with heq | hm
                · simp only [Prod.mk.injEq] at heq; omega
                rcases List.mem_cons.1 hm with heq | hm
                · simp only [Prod.mk.injEq] at heq
                  obtain ⟨rfl, rfl⟩ := heq
                  rw [hsuccs] at hl; cases hl
                  by_cases hjn : j = next
                  · subst hjn; rw [hs] at hv; cases hv; simp
                  · exact hold (h.seen u next (by simp) _ hsuccs j v (by omega) hv)
                · exact hold (h.seen u k (by simp [hm]) l hl j v hj hv)
              · intro u hu v he
                have := h.succ u hu v he
                simp only [List.map_cons, List.cons_append, List.mem_cons] at this ⊢
                exact Or.inr this
              · intro A u B hp hu
                obtain ⟨p, hp1, hp2⟩ := h.parent A u B hp hu
                refine ⟨p, hp1, hp2.imp id ?_⟩
                intro hc; simp only [List.map_cons, List.mem_cons] at hc ⊢; exact Or.inr hc
              · have := h.bottom
                simp only [List.map_cons, List.reverse_cons, List.append_assoc] at this ⊢
                cases hr : (rest.map Prod.fst).reverse with
                | nil => rw [hr] at this; simpa using this
                | cons a b => rw [hr] at this; simpa using this
      | none =>
        simp only
        have hnl : succs.length ≤ next := by rwa [List.getElem?_eq_none_iff] at hs
        have hperm : (rest.map Prod.fst ++ (post ++ [node])).Perm (((node, next) :: rest).map Prod.fst ++ post) := by
          simp only [List.map_cons, List.cons_append, ← List.append_assoc]
          exact List.perm_append_singleton _ _
        have hedge : ∀ v, Edge g node v → v ∈ ((node, next) :: rest).map Prod.fst ++ post := by
          rintro v ⟨l, hl, hv⟩
          rw [hsuccs] at hl; cases hl
          obtain ⟨j, hj, rfl⟩ := List.getElem_of_mem hv
          exact h.seen node next (by simp) _ hsuccs j _ (by omega) (List.getElem?_eq_getElem hj)
        refine ih _ ?_ vis (post ++ [node]) rest rfl ?_
        · rw [← hn]; simp only [frames, List.map_cons, List.sum_cons]; omega
        · refine ⟨h.len, ?_, ?_, ?_, ?_, ?_, ?_, ?_, ?_, ?_⟩
          · intro v; rw [hperm.mem_iff]; exact h.vis v
          · rw [hperm.nodup_iff]; exact h.nodup
          · intro v hv; exact h.reach v (hperm.mem_iff.1 hv)
          · have := h.chain
            cases rest with
            | nil => simp
            | cons b rest => rw [List.isChain_cons_cons] at this; exact this.2
          · intro u k hm l hl j v hj hv
            rw [hperm.mem_iff]
            exact h.seen u k (by simp [hm]) l hl j v hj hv
          · intro u hu v he
            rw [hperm.mem_iff]
            rcases List.mem_append.1 hu with hu | hu
            · exact h.succ u hu v he
            · simp at hu; subst hu; exact hedge v he
          · intro A u B hp v he
            rcases append_singleton_eq hp with ⟨rfl, rfl, rfl⟩ | ⟨B', rfl, hp'⟩
            · rcases List.mem_append.1 (hedge v he) with hm | hm
              · right
                obtain ⟨f, hf, rfl⟩ := List.mem_map.1 hm
                exact chain_reach h.chain rfl f hf
              · exact Or.inl hm
            · exact h.order A u B' hp' v he
          · intro A u B hp hu
            rcases append_singleton_eq hp with ⟨rfl, rfl, rfl⟩ | ⟨B', rfl, hp'⟩
            · cases rest with
              | nil =>
                exfalso
                have := h.bottom
                simp at this
                exact hu this
              | cons b rest =>
                have := h.chain
                rw [List.isChain_cons_cons] at this
                exact ⟨b.1, this.1, Or.inr (by simp)⟩
            · obtain ⟨p, hp1, hp2⟩ := h.parent A u B' hp' hu
              refine ⟨p, hp1, ?_⟩
              simp only [List.map_cons, List.mem_cons, List.mem_append, List.mem_singleton] at hp2 ⊢
              tauto
          · have := h.bottom
            simp only [List.map_cons, List.reverse_cons, List.append_assoc, List.reverse_append, List.reverse_nil,
              List.nil_append, List.singleton_append, List.cons_append] at this ⊢
            exact this

theorem reversePostorder_spec {g : Gr} (hg : WF g) {entry : Nat} (he : entry < g.length) :
    ∃ post, reversePostorder g entry = some post.reverse ∧ RPost g entry post := by
  obtain ⟨r, h1, h2⟩ := rpo_spec hg (entry := entry) _ ((List.replicate g.length false).set entry true) [] [(entry, 0)] rfl (by
    refine ⟨by simp, ?_, by simp, ?_, by simp, ?_, by simp, by simp, by simp, by simp⟩
    · intro v
      rw [List.getElem?_set]
      by_cases hv : entry = v
      · subst hv; simp [he]
      · simp only [hv, if_false, List.getElem?_replicate]
        simp [Ne.symm hv]
    · intro v hv; simp at hv; subst hv; exact reach_refl _ _
    · intro u k hm l hl j v hj
      simp at hm
      omega)
  exact ⟨r, by simp [reversePostorder, he, h1], h2⟩

/-- The same in terms of the returned list. -/
theorem rpo_final {g : Gr} (hg : WF g) {entry : Nat} (he : entry < g.length) :
    ∃ r, reversePostorder g entry = some r ∧ r.Nodup ∧ (∀ v, v ∈ r ↔ Reach g entry v) ∧ r.head? = some entry ∧
      (∀ A u B, r = A ++ u :: B → ∀ v, Edge g u v → v ∈ B ∨ Reach g v u) ∧
      (∀ A u B, r = A ++ u :: B → u ≠ entry → ∃ p ∈ A, Edge g p u) := by
  obtain ⟨post, h1, h2⟩ := reversePostorder_spec hg he
  have hrev : ∀ A u B, post.reverse = A ++ u :: B → post = B.reverse ++ u :: A.reverse := by
    intro A u B h
    rw [← List.reverse_reverse post, h]; simp
  refine ⟨post.reverse, h1, List.nodup_reverse.2 h2.nodup, ?_, h2.first, ?_, ?_⟩
  · intro v; rw [List.mem_reverse]; exact h2.mem v
  · intro A u B hAB v hv
    rcases h2.order _ u _ (hrev A u B hAB) v hv with h | h
    · exact Or.inl (List.mem_reverse.1 h)
    · exact Or.inr h
  · intro A u B hAB hu
    obtain ⟨p, hp, hpe⟩ := h2.parent _ u _ (hrev A u B hAB) hu
    exact ⟨p, List.mem_reverse.1 hp, hpe⟩

end Ferlium.Graph
