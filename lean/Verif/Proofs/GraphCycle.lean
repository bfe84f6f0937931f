import Verif.Proofs.Graph

/-! The cycle search. -/
namespace Ferlium.Graph

def unvisS : List VisitState → Gr → Nat
  | b :: bs, l :: ls => (if b = .unvisited then l.length + 2 else 0) + unvisS bs ls
  | _, _ => 0

theorem unvisS_set {vis : List VisitState} {g : Gr} {s : Nat} {l : List Nat} (hv : vis[s]? = some .unvisited)
    (hg : g[s]? = some l) : unvisS (vis.set s .onStack) g + (l.length + 2) = unvisS vis g := by
  induction vis generalizing g s with
  | nil => simp at hv
  | cons b bs ih =>
    cases g with
    | nil => simp at hg
    | cons m ls =>
      cases s with
      | zero => simp at hv hg; subst hv; subst hg; simp [unvisS]; omega
      | succ s =>
        simp at hv hg
        simp only [List.set_cons_succ, unvisS]
        have := ih hv hg
        omega

theorem unvisS_done {vis : List VisitState} {g : Gr} {s : Nat} (hv : vis[s]? = some .onStack) :
    unvisS (vis.set s .done) g = unvisS vis g := by
  induction vis generalizing g s with
  | nil => simp at hv
  | cons b bs ih =>
    cases g with
    | nil => simp [unvisS]
    | cons m ls =>
      cases s with
      | zero => simp at hv; subst hv; simp [unvisS]
      | succ s =>
        simp at hv
        simp only [List.set_cons_succ, unvisS, ih hv]

/-- A cycle listed in order: distinct nodes, each with an edge to the next and the last one to the first. -/
def IsCycle (g : Gr) (c : List Nat) : Prop :=
  c ≠ [] ∧ c.Nodup ∧ c.IsChain (Edge g) ∧ ∀ a b, c.head? = some a → c.getLast? = some b → Edge g b a

structure CInv (g : Gr) (start : Nat) (state : List VisitState) (path : List Nat) (stack : List (Nat × Nat))
    (dn : List Nat) : Prop where
  len : state.length = g.length
  on : ∀ v, state[v]? = some .onStack ↔ v ∈ stack.map Prod.fst
  isDn : ∀ v, state[v]? = some .done ↔ v ∈ dn
  pathEq : path = (stack.map Prod.fst).reverse
  nodup : (stack.map Prod.fst).Nodup
  dnNodup : dn.Nodup
  reach : ∀ v ∈ stack.map Prod.fst, Reach g start v
  chain : stack.IsChain (fun a b => Edge g b.1 a.1)
  seen : ∀ A u k B, stack = A ++ (u, k) :: B → ∀ l, g[u]? = some l → ∀ j v, j < k → l[j]? = some v →
    v ∈ dn ∨ v ∈ A.map Prod.fst
  topo : ∀ A u B, dn = A ++ u :: B → ∀ v, Edge g u v → v ∈ B
  startIn : start ∈ stack.map Prod.fst ∨ start ∈ dn

theorem topo_trans {g : Gr} {dn : List Nat} (h : ∀ A u B, dn = A ++ u :: B → ∀ v, Edge g u v → v ∈ B) {u v : Nat}
    (ht : Relation.TransGen (Edge g) u v) : ∀ A B, dn = A ++ u :: B → v ∈ B := by
  induction ht with
  | single he => exact fun A B hd => h A u B hd _ he
  | tail _ he ih =>
    intro A B hd
    have hb := ih A B hd
    obtain ⟨C, D, rfl⟩ := List.append_of_mem hb
    have := h (A ++ u :: C) _ D (by rw [hd]; simp) _ he
    simp [this]

theorem dropWhile_suffix {l : List Nat} {n : Nat} (h : n ∈ l) :
    ∃ A B, l = A ++ n :: B ∧ l.dropWhile (fun id => id ≠ n) = n :: B := by
  induction l with
  | nil => simp at h
  | cons a l ih =>
    by_cases ha : a = n
    · subst ha; exact ⟨[], l, rfl, by simp [List.dropWhile]⟩
    · obtain ⟨A, B, h1, h2⟩ := ih (by rcases List.mem_cons.1 h with rfl | h; exact absurd rfl ha; exact h)
      refine ⟨a :: A, B, by rw [h1]; rfl, ?_⟩
      rw [List.dropWhile_cons_of_pos (by simp [ha]), h2]

/-- The result describes the reachable part of the graph. -/
def CycleOk (g : Gr) (start : Nat) (r : Option (List Nat)) : Prop :=
  (∀ c, r = some c → IsCycle g c ∧ ∀ v ∈ c, Reach g start v) ∧
  (r = none → ¬ ∃ v, Reach g start v ∧ Relation.TransGen (Edge g) v v)

theorem cycle_spec {g : Gr} (hg : WF g) {start : Nat} :
    ∀ (n : Nat) (state : List VisitState) (path : List Nat) (stack : List (Nat × Nat)) (dn : List Nat),
      unvisS state g + frames g stack = n → CInv g start state path stack dn →
      ∃ r, cycleLoop g state path stack = some r ∧ CycleOk g start r := by
  intro n
  induction n using Nat.strong_induction_on with
  | _ n ih =>
    intro state path stack dn hn h
    cases stack with
    | nil =>
      refine ⟨none, by rw [cycleLoop], by simp, ?_⟩
      rintro - ⟨v, hr, hc⟩
      have hmem : v ∈ dn := by
        clear hc
        induction hr with
        | refl => simpa using h.startIn
        | tail _ he ihv =>
          obtain ⟨A, B, hd⟩ := List.append_of_mem ihv
          have := h.topo A _ B hd _ he
          rw [hd]; simp [this]
      obtain ⟨A, B, hd⟩ := List.append_of_mem hmem
      have := topo_trans h.topo hc A B hd
      have hnd := h.dnNodup
      rw [hd, List.nodup_append] at hnd
      have := hnd.2.1
      simp at this
      tauto
    | cons f rest =>
      obtain ⟨cur, child⟩ := f
      have hcur : state[cur]? = some .onStack := (h.on cur).2 (by simp)
      have hlt : cur < g.length := by rw [← h.len]; exact (List.getElem?_eq_some_iff.1 hcur).1
      obtain ⟨succs, hsuccs⟩ : ∃ l, g[cur]? = some l := ⟨g[cur], List.getElem?_eq_getElem hlt⟩
      have hdeg : deg g cur = succs.length := by simp [deg, hsuccs]
      have hchain' : ∀ k, ((cur, k) :: rest).IsChain (fun a b => Edge g b.1 a.1) := by
        intro k
        have := h.chain
        cases rest with
        | nil => simp
        | cons b rest => rw [List.isChain_cons_cons] at this ⊢; exact this
      rw [cycleLoop]
      simp only [hsuccs]
      cases hs : succs[child]? with
      | some s =>
        have hedge : Edge g cur s := ⟨succs, hsuccs, List.mem_of_getElem? hs⟩
        have hnl : child < succs.length := (List.getElem?_eq_some_iff.1 hs).1
        have hslt : s < state.length := by rw [h.len]; exact hg _ _ hedge
        simp only
        cases hvs : state[s]? with
        | none => rw [List.getElem?_eq_none_iff] at hvs; omega
        | some b =>
          cases b with
          | unvisited =>
            simp only
            obtain ⟨sl, hsl⟩ : ∃ l, g[s]? = some l :=
              ⟨_, List.getElem?_eq_getElem (show s < g.length by rw [← h.len]; exact hslt)⟩
            have hnew : s ∉ cur :: rest.map Prod.fst := by
              intro hc; rw [(h.on s).2 hc] at hvs; simp at hvs
            have hnew2 : s ∉ dn := by
              intro hc; rw [(h.isDn s).2 hc] at hvs; simp at hvs
            refine ih _ ?_ _ _ _ dn rfl ?_
            · have := unvisS_set hvs hsl
              have hd2 : deg g s = sl.length := by simp [deg, hsl]
              rw [← hn]; simp only [frames, List.map_cons, List.sum_cons, hdeg, hd2]; omega
            · refine ⟨by simp [h.len], ?_, ?_, ?_, ?_, h.dnNodup, ?_, ?_, ?_, h.topo, ?_⟩
              · intro v
                rw [List.getElem?_set]
                by_cases hvs' : s = v
                · subst hvs'; simp [hslt]
                · have := h.on v
                  simp only [hvs', if_false, this]
                  simp [Ne.symm hvs']
              · intro v
                rw [List.getElem?_set]
                by_cases hvs' : s = v
                · subst hvs'; simp [hslt, hnew2]
                · simp only [hvs', if_false, h.isDn v]
              · rw [h.pathEq]; simp
              · simp only [List.map_cons]
                exact List.nodup_cons.2 ⟨hnew, h.nodup⟩
              · intro v hv
                simp only [List.map_cons, List.mem_cons] at hv
                rcases hv with rfl | hv
                · exact reach_trans (h.reach cur (by simp)) (reach_edge hedge)
                · exact h.reach v (by simpa using hv)
              · rw [List.isChain_cons_cons]; exact ⟨hedge, hchain' _⟩
              · intro A u k B hst l hl j v hj hv
                cases A with
                | nil => simp at hst; omega
                | cons a A =>
                  simp only [List.cons_append, List.cons.injEq] at hst
                  obtain ⟨rfl, hst⟩ := hst
                  cases A with
                  | nil =>
                    simp only [List.nil_append, List.cons.injEq, Prod.mk.injEq] at hst
                    obtain ⟨⟨rfl, rfl⟩, rfl⟩ := hst
                    rw [hsuccs] at hl; cases hl
                    by_cases hjn : j = child
                    · subst hjn; rw [hs] at hv; cases hv; simp
                    · rcases h.seen [] cur child rest rfl _ hsuccs j v (by omega) hv with h1 | h1
                      · exact Or.inl h1
                      · simp at h1
                  | cons a A =>
                    simp only [List.cons_append, List.cons.injEq] at hst
                    obtain ⟨rfl, rfl⟩ := hst
                    rcases h.seen ((cur, child) :: A) u k B rfl l hl j v hj hv with h1 | h1
                    · exact Or.inl h1
                    · right; simp only [List.map_cons, List.mem_cons] at h1 ⊢; exact Or.inr h1
              · rcases h.startIn with h1 | h1
                · left; simp only [List.map_cons, List.mem_cons] at h1 ⊢; exact Or.inr h1
                · exact Or.inr h1
          | onStack =>
            simp only
            refine ⟨_, rfl, ?_, by simp⟩
            rintro c hc
            simp only [Option.some.injEq] at hc
            have hmem : s ∈ path := by rw [h.pathEq, List.mem_reverse]; exact (h.on s).1 hvs
            obtain ⟨A, B, h1, h2⟩ := dropWhile_suffix hmem
            rw [h2] at hc
            subst hc
            have hlast : path.getLast? = some cur := by rw [h.pathEq]; simp
            have hnd : path.Nodup := by rw [h.pathEq]; exact List.nodup_reverse.2 h.nodup
            have hch : path.IsChain (Edge g) := by
              rw [h.pathEq, List.isChain_reverse, List.isChain_map]; exact h.chain
            have hpr : ∀ v ∈ path, Reach g start v := by
              intro v hv; rw [h.pathEq, List.mem_reverse] at hv; exact h.reach v hv
            rw [h1] at hlast hnd hch hpr
            refine ⟨⟨by simp, (List.nodup_append.1 hnd).2.1, (List.isChain_append.1 hch).2.1, ?_⟩, ?_⟩
            · intro a b ha hb
              simp only [List.head?_cons, Option.some.injEq] at ha
              subst ha
              have : (A ++ s :: B).getLast? = (s :: B).getLast? := by
                rw [List.getLast?_append]; simp [List.getLast?_cons]
              rw [this, hb] at hlast
              cases hlast
              exact hedge
            · intro v hv; exact hpr v (by simp only [List.mem_append]; exact Or.inr hv)
          | done =>
            simp only
            refine ih _ ?_ state path _ dn rfl ?_
            · rw [← hn]; simp only [frames, List.map_cons, List.sum_cons, hdeg]; omega
            · have hmem := (h.isDn s).1 hvs
              refine ⟨h.len, h.on, h.isDn, h.pathEq, h.nodup, h.dnNodup, h.reach, hchain' _, ?_, h.topo, h.startIn⟩
              intro A u k B hst l hl j v hj hv
              cases A with
              | nil =>
                simp only [List.nil_append, List.cons.injEq, Prod.mk.injEq] at hst
                obtain ⟨⟨rfl, rfl⟩, rfl⟩ := hst
                rw [hsuccs] at hl; cases hl
                by_cases hjn : j = child
                · subst hjn; rw [hs] at hv; cases hv; exact Or.inl hmem
                · exact h.seen [] cur child rest rfl _ hsuccs j v (by omega) hv
              | cons a A =>
                simp only [List.cons_append, List.cons.injEq] at hst
                obtain ⟨rfl, rfl⟩ := hst
                have := h.seen ((cur, child) :: A) u k B rfl l hl j v hj hv
                simpa using this
      | none =>
        simp only
        have hnl : succs.length ≤ child := by rwa [List.getElem?_eq_none_iff] at hs
        have hnd := h.nodup
        simp only [List.map_cons, List.nodup_cons] at hnd
        have hnotdn : cur ∉ dn := by
          intro hc; rw [(h.isDn cur).2 hc] at hcur; simp at hcur
        have hall : ∀ v, Edge g cur v → v ∈ dn := by
          rintro v ⟨l, hl, hv⟩
          rw [hsuccs] at hl; cases hl
          obtain ⟨j, hj, rfl⟩ := List.getElem_of_mem hv
          rcases h.seen [] cur child rest rfl _ hsuccs j _ (by omega) (List.getElem?_eq_getElem hj) with h1 | h1
          · exact h1
          · simp at h1
        have hltS : cur < state.length := by rw [h.len]; exact hlt
        refine ih _ ?_ _ _ rest (cur :: dn) rfl ?_
        · rw [← hn, unvisS_done hcur]; simp only [frames, List.map_cons, List.sum_cons]; omega
        · refine ⟨by simp [h.len], ?_, ?_, ?_, hnd.2, List.nodup_cons.2 ⟨hnotdn, h.dnNodup⟩, ?_, ?_, ?_, ?_, ?_⟩
          · intro v
            rw [List.getElem?_set]
            by_cases hv : cur = v
            · subst hv; simp only [if_true, hltS, iff_false]
              constructor
              · intro hc; simp at hc
              · intro hc; exact absurd hc hnd.1
            · simp only [hv, if_false, h.on v, List.map_cons, List.mem_cons, Ne.symm hv, false_or]
          · intro v
            rw [List.getElem?_set]
            by_cases hv : cur = v
            · subst hv; simp [hltS]
            · simp only [hv, if_false, h.isDn v, List.mem_cons, Ne.symm hv, false_or]
          · rw [h.pathEq]; simp
          · intro v hv; exact h.reach v (by simp only [List.map_cons, List.mem_cons]; exact Or.inr hv)
          · have := h.chain
            cases rest with
            | nil => simp
            | cons b rest => rw [List.isChain_cons_cons] at this; exact this.2
          · intro A u k B hst l hl j v hj hv
            rcases h.seen ((cur, child) :: A) u k B (by rw [hst]; rfl) l hl j v hj hv with h1 | h1
            · left; simp [h1]
            · simp only [List.map_cons, List.mem_cons] at h1 ⊢
              tauto
          · intro A u B hd v he
            cases A with
            | nil =>
              simp only [List.nil_append, List.cons.injEq] at hd
              obtain ⟨rfl, rfl⟩ := hd
              exact hall v he
            | cons a A =>
              simp only [List.cons_append, List.cons.injEq] at hd
              exact h.topo A u B hd.2 v he
          · rcases h.startIn with h1 | h1
            · simp only [List.map_cons, List.mem_cons] at h1 ⊢; tauto
            · simp [h1]

theorem findCycleFrom_spec {g : Gr} (hg : WF g) {start : Nat} (he : start < g.length) :
    ∃ r, findCycleFrom g start = some r ∧ CycleOk g start r := by
  obtain ⟨r, h1, h2⟩ := cycle_spec hg (start := start) _
    ((List.replicate g.length .unvisited).set start .onStack) [start] [(start, 0)] [] rfl (by
    refine ⟨by simp, ?_, ?_, by simp, by simp, by simp, ?_, by simp, ?_, by simp, by simp⟩
    · intro v
      rw [List.getElem?_set]
      by_cases hv : start = v
      · subst hv; simp [he]
      · simp only [hv, if_false, List.getElem?_replicate]
        simp [Ne.symm hv]
    · intro v
      rw [List.getElem?_set]
      by_cases hv : start = v
      · subst hv; simp [he]
      · simp only [hv, if_false, List.getElem?_replicate]
        simp
    · intro v hv; simp at hv; subst hv; exact reach_refl _ _
    · intro A u k B hst l hl j v hj
      cases A with
      | nil => simp at hst; omega
      | cons a A => simp at hst)
  exact ⟨r, by simp [findCycleFrom, he, h1], h2⟩

/-- A listed cycle contains a node that reaches itself. -/
theorem isCycle_trans {g : Gr} {c : List Nat} (h : IsCycle g c) : ∃ v ∈ c, Relation.TransGen (Edge g) v v := by
  obtain ⟨h1, -, h3, h4⟩ := h
  cases c with
  | nil => exact absurd rfl h1
  | cons a l =>
    have hl : ∀ (l : List Nat) (a b : Nat), (a :: l).IsChain (Edge g) → (a :: l).getLast? = some b → Reach g a b := by
      intro l
      induction l with
      | nil => intro a b _ hb; simp at hb; subst hb; exact reach_refl _ _
      | cons x l ih =>
        intro a b hc hb
        rw [List.isChain_cons_cons] at hc
        rw [List.getLast?_cons_cons] at hb
        exact reach_trans (reach_edge hc.1) (ih x b hc.2 hb)
    obtain ⟨b, hb⟩ : ∃ b, (a :: l).getLast? = some b := ⟨_, List.getLast?_eq_some_getLast (by simp)⟩
    exact ⟨a, by simp, Relation.TransGen.tail' (hl l a b h3 hb) (h4 a b rfl hb)⟩

end Ferlium.Graph
