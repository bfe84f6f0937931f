import Verif.Proofs.GraphScc

/-! Kahn's algorithm on the condensed graph. -/
namespace Ferlium.Graph

/-- Two groups are connected by an edge between members. -/
def Cross (g : Gr) (sccs : List (List Nat)) (i j : Nat) : Prop :=
  i ≠ j ∧ ∃ a b u w, sccs[i]? = some a ∧ sccs[j]? = some b ∧ u ∈ a ∧ w ∈ b ∧ Edge g u w

theorem flatten_unique {sccs : List (List Nat)} (h : sccs.flatten.Nodup) {i j : Nat} {a b : List Nat}
    (ha : sccs[i]? = some a) (hb : sccs[j]? = some b) {x : Nat} (hxa : x ∈ a) (hxb : x ∈ b) : i = j := by
  rw [List.nodup_flatten] at h
  obtain ⟨hi, rfl⟩ := List.getElem?_eq_some_iff.1 ha
  obtain ⟨hj, rfl⟩ := List.getElem?_eq_some_iff.1 hb
  have hp := List.pairwise_iff_getElem.1 h.2
  rcases Nat.lt_trichotomy i j with hij | hij | hij
  · exact absurd hxb (hp i j hi hj hij hxa)
  · exact hij
  · exact absurd hxa (hp j i hj hi hij hxb)

theorem nodeToScc_spec {g : Gr} {sccs : List (List Nat)} (h : SccOk g sccs) :
    ∃ m, nodeToScc g sccs = some m ∧ m.length = g.length ∧
      ∀ v i : Nat, m[v]? = some (some i) ↔ ∃ c, sccs[i]? = some c ∧ v ∈ c := by
  obtain ⟨m, h1, h2, h3⟩ := foldlM_inv
    (f := fun (m : List (Option Nat)) (p : List Nat × Nat) =>
      p.1.foldlM (init := m) fun m node => if node < m.length then some (m.set node (some p.2)) else none)
    (fun pre m => m.length = g.length ∧ ∀ v i : Nat, m[v]? = some (some i) ↔ ∃ c, (c, i) ∈ pre ∧ v ∈ c)
    (l := sccs.zipIdx) (init := List.replicate g.length none)
    ⟨by simp, by intro v i; simp [List.getElem?_replicate]⟩ (by
      rintro pre ⟨c, i⟩ post m hl ⟨hm1, hm2⟩
      have hci : sccs[i]? = some c := by
        have : (c, i) ∈ sccs.zipIdx := by rw [hl]; simp
        exact List.mem_zipIdx_iff_getElem?.1 this
      have hpre : ∀ c' i', (c', i') ∈ pre → sccs[i']? = some c' := by
        intro c' i' hc
        have : (c', i') ∈ sccs.zipIdx := by rw [hl]; simp [hc]
        exact List.mem_zipIdx_iff_getElem?.1 this
      obtain ⟨m', k1, k2, k3⟩ := foldlM_inv
        (f := fun (m : List (Option Nat)) node => if node < m.length then some (m.set node (some i)) else none)
        (fun pr m' => m'.length = g.length ∧
          ∀ v : Nat, m'[v]? = if v ∈ pr then some (some i) else m[v]?) (l := c) (init := m) ⟨hm1, by simp⟩ (by
          intro pr x po m' hl' ⟨q1, q2⟩
          have hx : x < g.length := (h.cover x).1 (List.mem_flatten.2 ⟨c, List.mem_of_getElem? hci, by rw [hl']; simp⟩)
          refine ⟨m'.set x (some i), by simp [q1, hx], by simp [q1], ?_⟩
          intro v
          rw [List.getElem?_set, q2 v]
          by_cases hv : x = v
          · subst hv; simp [q1, hx]
          · simp [hv, Ne.symm hv])
      refine ⟨m', k1, k2, ?_⟩
      intro v j
      rw [k3 v]
      by_cases hv : v ∈ c
      · simp only [hv, if_true, Option.some.injEq]
        constructor
        · rintro rfl; exact ⟨c, by simp, hv⟩
        · rintro ⟨c', hc', hv'⟩
          rcases List.mem_append.1 hc' with hc' | hc'
          · exact flatten_unique h.nodup hci (hpre c' j hc') hv hv'
          · simp at hc'; exact hc'.2.symm
      · simp only [hv, if_false, hm2 v j]
        constructor
        · rintro ⟨c', h1, h2⟩; exact ⟨c', by simp [h1], h2⟩
        · rintro ⟨c', h1, h2⟩
          rcases List.mem_append.1 h1 with h1 | h1
          · exact ⟨c', h1, h2⟩
          · simp at h1; rw [h1.1] at h2; exact absurd h2 hv)
  refine ⟨m, h1, h2, ?_⟩
  intro v i
  rw [h3]
  simp only [List.mem_zipIdx_iff_getElem?]

/-- `edges[i]` as a list. -/
def outs (edges : List (List Nat)) (i : Nat) : List Nat := (edges[i]?).getD []

/-- Number of groups outside `em` with an edge to `j`. -/
def cnt (edges : List (List Nat)) (em : List Nat) (j : Nat) : Nat :=
  ((Finset.range edges.length).filter (fun i => i ∉ em ∧ j ∈ outs edges i)).card

structure DInv (n : Nat) (map : List (Option Nat)) (seen : List (Nat × Nat)) (s : List (List Nat) × List Nat) : Prop where
  len1 : s.1.length = n
  len2 : s.2.length = n
  nodup : ∀ i, (outs s.1 i).Nodup
  mem : ∀ i j, j ∈ outs s.1 i ↔ i ≠ j ∧ ∃ v, (i, v) ∈ seen ∧ map[v]? = some (some j)
  deg : ∀ j, j < n → s.2[j]? = some (cnt s.1 [] j)

theorem outs_set {edges : List (List Nat)} {i : Nat} (hi : i < edges.length) (l : List Nat) (k : Nat) :
    outs (edges.set i l) k = if i = k then l else outs edges k := by
  simp only [outs, List.getElem?_set]
  split <;> simp [hi]

theorem dinv_step {n : Nat} {map : List (Option Nat)} {seen : List (Nat × Nat)} {s : List (List Nat) × List Nat}
    (h : DInv n map seen s) {i v : Nat} (hi : i < n) {o : Option Nat} (hv : map[v]? = some o) (ho : ∀ j, o = some j → j < n) :
    ∃ s', condenseEdge map i s v = some s' ∧ DInv n map (seen ++ [(i, v)]) s' := by
  have hmem : ∀ a b, (∃ x, (a, x) ∈ seen ++ [(i, v)] ∧ map[x]? = some (some b)) ↔
      (∃ x, (a, x) ∈ seen ∧ map[x]? = some (some b)) ∨ (a = i ∧ o = some b) := by
    intro a b
    constructor
    · rintro ⟨x, h1, h2⟩
      rcases List.mem_append.1 h1 with h1 | h1
      · exact Or.inl ⟨x, h1, h2⟩
      · simp at h1; obtain ⟨rfl, rfl⟩ := h1
        rw [hv] at h2; simp at h2; exact Or.inr ⟨rfl, h2⟩
    · rintro (⟨x, h1, h2⟩ | ⟨rfl, rfl⟩)
      · exact ⟨x, by simp [h1], h2⟩
      · exact ⟨v, by simp, hv⟩
  have same : (∀ b, o = some b → i = b ∨ b ∈ outs s.1 i) → DInv n map (seen ++ [(i, v)]) s := by
    intro hs
    refine ⟨h.len1, h.len2, h.nodup, ?_, h.deg⟩
    intro a b
    rw [hmem, h.mem]
    constructor
    · rintro ⟨h1, h2⟩; exact ⟨h1, Or.inl h2⟩
    · rintro ⟨h1, h2 | ⟨rfl, h2⟩⟩
      · exact ⟨h1, h2⟩
      · rcases hs b h2 with h3 | h3
        · exact absurd h3 h1
        · exact (h.mem _ _).1 h3
  cases o with
  | none => exact ⟨s, by simp [condenseEdge, hv], same (by simp)⟩
  | some j =>
    have hj := ho j rfl
    by_cases hij : i = j
    · refine ⟨s, by simp [condenseEdge, hv, hij], same ?_⟩
      intro b hb; cases hb; exact Or.inl hij
    · have h1 : s.1[i]? = some (outs s.1 i) := by
        simp [outs, List.getElem?_eq_getElem (show i < s.1.length by rw [h.len1]; exact hi)]
      have h2 := h.deg j hj
      by_cases hc : j ∈ outs s.1 i
      · refine ⟨s, by simp [condenseEdge, hv, hij, h1, h2, hc], same ?_⟩
        intro b hb; cases hb; exact Or.inr hc
      · have hil : i < s.1.length := by rw [h.len1]; exact hi
        refine ⟨(s.1.set i (outs s.1 i ++ [j]), s.2.set j (cnt s.1 [] j + 1)), by simp [condenseEdge, hv, hij, h1, h2, hc], ?_⟩
        refine ⟨by simp [h.len1], by simp [h.len2], ?_, ?_, ?_⟩
        · intro k
          simp only [outs_set hil]
          split
          · rw [List.nodup_append]
            refine ⟨h.nodup i, by simp, ?_⟩
            intro a ha b hb; simp at hb; subst hb; rintro rfl; exact hc ha
          · exact h.nodup k
        · intro a b
          simp only [outs_set hil]
          rw [hmem]
          by_cases ha : i = a
          · subst ha
            simp only [if_true, List.mem_append, List.mem_singleton, h.mem]
            constructor
            · rintro (⟨q1, q2⟩ | rfl)
              · exact ⟨q1, Or.inl q2⟩
              · exact ⟨hij, Or.inr (by simp)⟩
            · rintro ⟨q1, q2 | ⟨-, q2⟩⟩
              · exact Or.inl ⟨q1, q2⟩
              · simp at q2; exact Or.inr q2.symm
          · simp only [ha, if_false, h.mem, Ne.symm ha, false_and, or_false]
        · intro k hk
          rw [List.getElem?_set]
          by_cases hjk : j = k
          · subst hjk
            simp only [if_true, h.len2, hj, Option.some.injEq]
            simp only [cnt, List.length_set]
            rw [← Finset.card_insert_of_notMem (a := i)
              (s := (Finset.range s.1.length).filter (fun i => i ∉ ([] : List Nat) ∧ j ∈ outs s.1 i)) (by simp [hc])]
            congr 1
            ext x
            simp only [Finset.mem_insert, Finset.mem_filter, Finset.mem_range, List.not_mem_nil, not_false_eq_true, true_and,
              outs_set hil]
            by_cases hx : i = x
            · subst hx; simp [hil]
            · simp [hx, Ne.symm hx]
          · simp only [hjk, if_false]
            rw [h.deg k hk]
            simp only [Option.some.injEq, cnt, List.length_set]
            congr 1
            ext x
            simp only [Finset.mem_filter, Finset.mem_range, List.not_mem_nil, not_false_eq_true, true_and, outs_set hil]
            by_cases hx : i = x
            · subst hx; simp [Ne.symm hjk]
            · simp [hx]

theorem condense_spec {g : Gr} (hg : WF g) {sccs : List (List Nat)} (h : SccOk g sccs) {map : List (Option Nat)}
    (hlen : map.length = g.length)
    (hmap : ∀ v i : Nat, map[v]? = some (some i) ↔ ∃ c, sccs[i]? = some c ∧ v ∈ c) :
    ∃ s, condense g sccs map = some s ∧ s.1.length = sccs.length ∧ s.2.length = sccs.length ∧
      (∀ i, (outs s.1 i).Nodup) ∧ (∀ i j, j ∈ outs s.1 i ↔ Cross g sccs i j) ∧
      ∀ j, j < sccs.length → s.2[j]? = some (cnt s.1 [] j) := by
  obtain ⟨s, h1, seen, h2, h3⟩ := foldlM_inv
    (f := fun s (p : List Nat × Nat) =>
      p.1.foldlM (init := s) fun s node =>
        match g[node]? with
        | none => none
        | some neighbors => neighbors.foldlM (init := s) (condenseEdge map p.2))
    (fun pre s => ∃ seen, DInv sccs.length map seen s ∧
      ∀ i v, (i, v) ∈ seen ↔ ∃ c u, (c, i) ∈ pre ∧ u ∈ c ∧ Edge g u v)
    (l := sccs.zipIdx) (init := (List.replicate sccs.length [], List.replicate sccs.length 0)) (by
      have hout : ∀ i, outs (List.replicate sccs.length []) i = [] := by
        intro i; simp only [outs, List.getElem?_replicate]; split <;> rfl
      refine ⟨[], ⟨by simp, by simp, by simp [hout], by simp [hout], ?_⟩, by simp⟩
      intro j hj
      simp [List.getElem?_replicate, hj, cnt, hout]) (by
      rintro pre ⟨c, i⟩ post s hl ⟨seen, hd, hseen⟩
      have hci : sccs[i]? = some c := by
        have : (c, i) ∈ sccs.zipIdx := by rw [hl]; simp
        exact List.mem_zipIdx_iff_getElem?.1 this
      have hi : i < sccs.length := (List.getElem?_eq_some_iff.1 hci).1
      obtain ⟨s', k1, seen', k2, k3⟩ := foldlM_inv
        (f := fun s node =>
          match g[node]? with
          | none => none
          | some neighbors => neighbors.foldlM (init := s) (condenseEdge map i))
        (fun pr s' => ∃ seen', DInv sccs.length map seen' s' ∧
          ∀ a v, (a, v) ∈ seen' ↔ (a, v) ∈ seen ∨ (a = i ∧ ∃ u ∈ pr, Edge g u v)) (l := c) (init := s)
        ⟨seen, hd, by simp⟩ (by
          rintro pr x po s' hl' ⟨seen', q1, q2⟩
          have hx : x < g.length := (h.cover x).1 (List.mem_flatten.2 ⟨c, List.mem_of_getElem? hci, by rw [hl']; simp⟩)
          obtain ⟨nb, hnb⟩ : ∃ l, g[x]? = some l := ⟨g[x], List.getElem?_eq_getElem hx⟩
          simp only [hnb]
          obtain ⟨s'', r1, r2⟩ := foldlM_inv (f := condenseEdge map i)
            (fun p s'' => DInv sccs.length map (seen' ++ p.map (fun v => (i, v))) s'') (l := nb) (init := s') (by simpa using q1) (by
              intro p y po' s'' hl'' hd''
              have hy : y < g.length := hg x y ⟨nb, hnb, by rw [hl'']; simp⟩
              obtain ⟨o, ho⟩ : ∃ o, map[y]? = some o := ⟨map[y], List.getElem?_eq_getElem (by rw [hlen]; exact hy)⟩
              obtain ⟨s3, e1, e2⟩ := dinv_step hd'' hi ho (by
                rintro j rfl
                obtain ⟨c', hc', -⟩ := (hmap y j).1 ho
                exact (List.getElem?_eq_some_iff.1 hc').1)
              exact ⟨s3, e1, by simpa using e2⟩)
          refine ⟨s'', r1, _, r2, ?_⟩
          intro a v
          rw [List.mem_append, q2]
          constructor
          · rintro ((h1 | ⟨rfl, u, hu, he⟩) | h1)
            · exact Or.inl h1
            · exact Or.inr ⟨rfl, u, by simp [hu], he⟩
            · simp at h1; obtain ⟨h1, rfl⟩ := h1
              exact Or.inr ⟨rfl, x, by simp, nb, hnb, h1⟩
          · rintro (h1 | ⟨rfl, u, hu, he⟩)
            · exact Or.inl (Or.inl h1)
            · rcases List.mem_append.1 hu with hu | hu
              · exact Or.inl (Or.inr ⟨rfl, u, hu, he⟩)
              · simp at hu; subst hu
                obtain ⟨l, hl1, hl2⟩ := he
                rw [hnb] at hl1; cases hl1
                right; simp [hl2])
      refine ⟨s', k1, seen', k2, ?_⟩
      intro a v
      rw [k3, hseen]
      constructor
      · rintro (⟨c', u, h1, h2, h3⟩ | ⟨rfl, u, hu, he⟩)
        · exact ⟨c', u, by simp [h1], h2, h3⟩
        · exact ⟨c, u, by simp, hu, he⟩
      · rintro ⟨c', u, h1, h2, h3⟩
        rcases List.mem_append.1 h1 with h1 | h1
        · exact Or.inl ⟨c', u, h1, h2, h3⟩
        · simp at h1; obtain ⟨rfl, rfl⟩ := h1; exact Or.inr ⟨rfl, u, h2, h3⟩)
  refine ⟨s, h1, h2.len1, h2.len2, h2.nodup, ?_, h2.deg⟩
  intro i j
  rw [h2.mem]
  simp only [Cross, h3, List.mem_zipIdx_iff_getElem?, hmap]
  constructor
  · rintro ⟨q1, v, ⟨c, u, e1, e2, e3⟩, c', e4, e5⟩
    exact ⟨q1, c, c', u, v, e1, e4, e2, e5, e3⟩
  · rintro ⟨q1, c, c', u, v, e1, e4, e2, e5, e3⟩
    exact ⟨q1, v, ⟨c, u, e1, e2, e3⟩, c', e4, e5⟩

theorem cnt_emit {edges : List (List Nat)} {em : List Nat} {i j : Nat} (hi : i < edges.length) (hem : i ∉ em) :
    cnt edges em j = cnt edges (em ++ [i]) j + (if j ∈ outs edges i then 1 else 0) := by
  simp only [cnt]
  by_cases hj : j ∈ outs edges i
  · simp only [hj, if_true]
    rw [← Finset.card_insert_of_notMem (a := i)
      (s := (Finset.range edges.length).filter (fun x => x ∉ em ++ [i] ∧ j ∈ outs edges x)) (by simp)]
    congr 1
    ext x
    simp only [Finset.mem_insert, Finset.mem_filter, Finset.mem_range, List.mem_append, List.mem_singleton, not_or]
    by_cases hx : x = i
    · subst hx; simp [hi, hem, hj]
    · simp [hx]
  · simp only [hj, if_false, Nat.add_zero]
    congr 1
    ext x
    simp only [Finset.mem_filter, Finset.mem_range, List.mem_append, List.mem_singleton, not_or]
    by_cases hx : x = i
    · subst hx; simp [hj]
    · simp [hx]

structure KInv (edges : List (List Nat)) (degree queue em : List Nat) : Prop where
  deg : ∀ j, j < edges.length → degree[j]? = some (cnt edges em j)
  len : degree.length = edges.length
  nodup : (queue ++ em).Nodup
  lt : ∀ j ∈ queue ++ em, j < edges.length
  zero : ∀ j, j < edges.length → (cnt edges em j = 0 ↔ j ∈ queue ++ em)
  order : ∀ A j B, em = A ++ j :: B → ∀ i, i < edges.length → j ∈ outs edges i → i ∈ A

theorem kahn_spec {order : List Nat → List Nat} (horder : ∀ l, (order l).Perm l) {sccs edges : List (List Nat)}
    (hlen : edges.length = sccs.length) (hnd : ∀ i, (outs edges i).Nodup)
    (hlt : ∀ i j, j ∈ outs edges i → j < edges.length) (hdown : ∀ i j, j ∈ outs edges i → j < i) :
    ∀ (n : Nat) (degree queue em : List Nat), edges.length - em.length = n → KInv edges degree queue em →
      ∃ em', kahnLoop order sccs edges degree queue (em.map (fun i => outs sccs i)) =
          some (em'.map (fun i => outs sccs i)) ∧ em'.Perm (List.range edges.length) ∧
        ∀ A j B, em' = A ++ j :: B → ∀ i, i < edges.length → j ∈ outs edges i → i ∈ A := by
  intro n
  induction n using Nat.strong_induction_on with
  | _ n ih =>
    intro degree queue em hn h
    cases queue with
    | nil =>
      refine ⟨em, by rw [kahnLoop], ?_, h.order⟩
      have hnd' : em.Nodup := by simpa using h.nodup
      rw [List.perm_ext_iff_of_nodup hnd' List.nodup_range]
      intro j
      rw [List.mem_range]
      constructor
      · intro hj; exact h.lt j (by simpa using hj)
      · intro hj
        by_contra hc
        -- the largest group not emitted has no remaining predecessor
        obtain ⟨m, hm1, hm2⟩ : ∃ m, (m < edges.length ∧ m ∉ em) ∧ ∀ k, m < k → ¬ (k < edges.length ∧ k ∉ em) := by
          have hfin : ((Finset.range edges.length).filter (fun k => k ∉ em)).Nonempty := ⟨j, by simp [hj, hc]⟩
          refine ⟨Finset.max' _ hfin, ?_, ?_⟩
          · have := Finset.max'_mem _ hfin; simpa using this
          · intro k hk hk2
            have := Finset.le_max' _ k (show k ∈ (Finset.range edges.length).filter (fun k => k ∉ em) by simpa using hk2)
            omega
        have hz : cnt edges em m = 0 := by
          rw [cnt, Finset.card_eq_zero, Finset.filter_eq_empty_iff]
          rintro i hi ⟨h1, h2⟩
          exact hm2 i (hdown i m h2) ⟨Finset.mem_range.1 hi, h1⟩
        have := (h.zero m hm1.1).1 hz
        simp at this
        exact hm1.2 this
    | cons i queue =>
      have hi : i < edges.length := h.lt i (by simp)
      have hndq := h.nodup
      simp only [List.cons_append, List.nodup_cons] at hndq
      have hiem : i ∉ em := fun hc => hndq.1 (by simp [hc])
      have hs : sccs[i]? = some (outs sccs i) := by
        simp [outs, List.getElem?_eq_getElem (show i < sccs.length by omega)]
      have hes : edges[i]? = some (outs edges i) := by
        simp [outs, List.getElem?_eq_getElem hi]
      rw [kahnLoop]
      simp only [hs, hes]
      have hop := horder (outs edges i)
      have hond : (order (outs edges i)).Nodup := hop.nodup_iff.2 (hnd i)
      have hcnt : ∀ j, cnt edges em j = cnt edges (em ++ [i]) j + (if j ∈ outs edges i then 1 else 0) :=
        fun j => cnt_emit hi hiem
      obtain ⟨s, h1, h2, h3, h4⟩ := foldlM_inv (f := kahnEdge)
        (fun pre s => s.1.length = edges.length ∧
          (∀ j, j < edges.length → s.1[j]? = some (if j ∈ pre then cnt edges (em ++ [i]) j else cnt edges em j)) ∧
          s.2 = queue ++ pre.filter (fun j => cnt edges (em ++ [i]) j = 0))
        (l := order (outs edges i)) (init := (degree, queue)) ⟨h.len, by simpa using h.deg, by simp⟩ (by
          intro pre x post s hl ⟨q1, q2, q3⟩
          have hx : x ∈ outs edges i := hop.mem_iff.1 (by rw [hl]; simp)
          have hxl := hlt i x hx
          have hxp : x ∉ pre := by
            intro hc
            rw [hl, List.nodup_append] at hond
            exact hond.2.2 x hc x (by simp) rfl
          have hc := hcnt x
          simp only [hx, if_true] at hc
          have hx1 : s.1[x]? = some (cnt edges (em ++ [i]) x + 1) := by
            rw [q2 x hxl]; simp [hxp, hc]
          refine ⟨_, by simp only [kahnEdge, hx1]; rfl, by simp [q1], ?_, ?_⟩
          · intro j hj
            show (s.1.set x _)[j]? = _
            rw [List.getElem?_set]
            by_cases hxj : x = j
            · subst hxj; simp [q1, hj]
            · simp only [hxj, if_false, q2 j hj, List.mem_append, List.mem_singleton, Ne.symm hxj, or_false]
          · rw [List.filter_append]
            by_cases hz : cnt edges (em ++ [i]) x = 0
            · simp [hz, q3]
            · simp [hz, q3])
      simp only [h1, Option.bind_eq_bind, Option.bind_some]
      have hmap : em.map (fun i => outs sccs i) ++ [outs sccs i] = (em ++ [i]).map (fun i => outs sccs i) := by simp
      rw [hmap]
      refine ih _ ?_ s.1 s.2 (em ++ [i]) rfl ?_
      · have hle : (i :: em).length ≤ edges.length := by
          have hnd2 : (i :: em).Nodup := List.nodup_cons.2 ⟨hiem, (List.nodup_append.1 hndq.2).2.1⟩
          have hsub : (i :: em) ⊆ List.range edges.length := by
            intro x hx
            refine List.mem_range.2 (h.lt x ?_)
            rcases List.mem_cons.1 hx with rfl | hx <;> simp [*]
          simpa using (hnd2.subperm hsub).length_le
        simp only [List.length_cons] at hle
        rw [← hn]; simp only [List.length_append, List.length_singleton]; omega
      · have hmemO : ∀ j, j ∈ order (outs edges i) ↔ j ∈ outs edges i := fun j => hop.mem_iff
        have hpos : ∀ j, j ∈ outs edges i → j ∉ (i :: queue) ++ em := by
          intro j hj hc
          have h5 := (h.zero j (hlt i j hj)).2 hc
          have := hcnt j
          simp only [hj, if_true] at this
          omega
        refine ⟨?_, h2, ?_, ?_, ?_, ?_⟩
        · intro j hj
          rw [h3 j hj]
          simp only [hmemO]
          split
          · rfl
          · next hc => have := hcnt j; simp only [hc, if_false, Nat.add_zero] at this; rw [this]
        · rw [h4]
          have hp : (queue ++ List.filter (fun j => decide (cnt edges (em ++ [i]) j = 0)) (order (outs edges i)) ++ (em ++ [i])).Perm
              (List.filter (fun j => decide (cnt edges (em ++ [i]) j = 0)) (order (outs edges i)) ++ ((i :: queue) ++ em)) := by
            rw [List.perm_iff_count]
            intro a
            simp only [List.count_append, List.count_cons, List.count_nil]
            omega
          rw [hp.nodup_iff, List.nodup_append]
          refine ⟨hond.filter _, h.nodup, ?_⟩
          rintro a ha b hb rfl
          exact hpos a ((hmemO a).1 (List.mem_of_mem_filter ha)) hb
        · intro j hj
          rw [h4] at hj
          simp only [List.mem_append, List.mem_filter, hmemO, List.mem_singleton] at hj
          rcases hj with (hj | hj) | hj | hj
          · exact h.lt j (by simp [hj])
          · exact hlt i j hj.1
          · exact h.lt j (by simp [hj])
          · rw [hj]; exact hi
        · intro j hj
          rw [h4]
          simp only [List.mem_append, List.mem_filter, hmemO, List.mem_singleton, decide_eq_true_eq]
          have hc := hcnt j
          have hz := h.zero j hj
          simp only [List.mem_append, List.mem_cons] at hz
          constructor
          · intro h0
            by_cases hjo : j ∈ outs edges i
            · exact Or.inl (Or.inr ⟨hjo, h0⟩)
            · simp only [hjo, if_false, Nat.add_zero] at hc
              rcases hz.1 (by omega) with (h5 | h5) | h5 <;> simp [h5]
          · rintro ((h5 | h5) | h5 | h5)
            · have := hz.2 (by simp [h5]); omega
            · exact h5.2
            · have := hz.2 (by simp [h5]); omega
            · have := hz.2 (by simp [h5]); omega
        · intro A j B hAB k hk hjk
          rcases append_singleton_eq hAB with ⟨rfl, rfl, rfl⟩ | ⟨B', rfl, hB⟩
          · have hz := (h.zero j hi).2 (by simp)
            rw [cnt, Finset.card_eq_zero, Finset.filter_eq_empty_iff] at hz
            by_contra hc
            exact hz (Finset.mem_range.2 hk) ⟨hc, hjk⟩
          · exact h.order A j B' hB k hk hjk

theorem cross_down {g : Gr} {sccs : List (List Nat)} (h : SccOk g sccs) {i j : Nat} (hc : Cross g sccs i j) : j < i := by
  obtain ⟨hne, a, b, u, w, ha, hb, hu, hw, he⟩ := hc
  obtain ⟨hi, hai⟩ := List.getElem?_eq_some_iff.1 ha
  have hsplit : sccs = sccs.take i ++ a :: sccs.drop (i + 1) := by
    rw [← hai]; simp
  rcases h.closed _ a _ hsplit u hu w he with h1 | h1
  · exact absurd (flatten_unique h.nodup ha hb h1 hw) hne
  · obtain ⟨c, hc, hwc⟩ := List.mem_flatten.1 h1
    obtain ⟨k, hk, rfl⟩ := List.getElem_of_mem hc
    have hkl := hk
    rw [List.length_take] at hkl
    have : sccs[k]? = some ((sccs.take i)[k]) := by
      rw [List.getElem_take]; exact List.getElem?_eq_getElem (by omega)
    have := flatten_unique h.nodup hb this hw hwc
    omega

theorem topo_spec {g : Gr} (hg : WF g) {sccs : List (List Nat)} (h : SccOk g sccs) {order : List Nat → List Nat}
    (horder : ∀ l, (order l).Perm l) :
    ∃ r, topologicalSortSccs order g sccs = some r ∧ r.Perm sccs ∧
      ∀ A c B, r = A ++ c :: B → ∀ u ∈ c, ∀ w, Edge g u w → w ∈ c ∨ w ∈ B.flatten := by
  obtain ⟨m, hm1, hm2, hm3⟩ := nodeToScc_spec h
  obtain ⟨⟨edges, degree⟩, hs1, hs2, hs3, hs4, hs5, hs6⟩ := condense_spec hg h hm2 hm3
  simp only at hs2 hs3 hs4 hs5 hs6
  have hlt : ∀ i j, j ∈ outs edges i → j < edges.length := by
    intro i j hj
    obtain ⟨-, a, b, u, w, ha, hb, -⟩ := (hs5 i j).1 hj
    rw [hs2]; exact (List.getElem?_eq_some_iff.1 hb).1
  obtain ⟨em, h1, h2, h3⟩ := kahn_spec horder hs2 hs4 hlt (fun i j hj => cross_down h ((hs5 i j).1 hj)) _ degree
    ((List.range sccs.length).filter (fun i => degree[i]? = some 0)) [] rfl (by
      refine ⟨by rw [hs2]; exact hs6, by omega, ?_, ?_, ?_, by simp⟩
      · simpa using List.nodup_range.filter _
      · intro j hj
        simp only [List.append_nil, List.mem_filter, List.mem_range] at hj
        omega
      · intro j hj
        rw [hs2] at hj
        simp [hj, hs6 j hj])
  refine ⟨em.map (fun i => outs sccs i), ?_, ?_, ?_⟩
  · simp only [topologicalSortSccs, hm1, Option.bind_some, hs1]
    exact h1
  · have hr : (List.range edges.length).map (fun i => outs sccs i) = sccs := by
      rw [hs2]
      apply List.ext_getElem (by simp)
      intro i hi1 hi2
      simp [outs, hi2]
    exact (h2.map _).trans (by rw [hr])
  · intro A c B hAB u hu w he
    obtain ⟨A', B', rfl, rfl, hB⟩ := List.map_eq_append_iff.1 hAB
    obtain ⟨i, B'', rfl, rfl, rfl⟩ := List.map_eq_cons_iff.1 hB
    have hi : i < sccs.length := by
      have : i ∈ List.range edges.length := h2.mem_iff.1 (by simp)
      rw [List.mem_range] at this; omega
    have hci : sccs[i]? = some (outs sccs i) := by simp [outs, List.getElem?_eq_getElem hi]
    obtain ⟨d, hd, hwd⟩ := List.mem_flatten.1 ((h.cover w).2 (hg _ _ he))
    obtain ⟨j, hj, rfl⟩ := List.getElem_of_mem hd
    have hcj : sccs[j]? = some sccs[j] := List.getElem?_eq_getElem hj
    by_cases hij : i = j
    · subst hij; left; simpa [outs, hj] using hwd
    · right
      have hcr : j ∈ outs edges i := (hs5 i j).2 ⟨hij, _, _, u, w, hci, hcj, hu, hwd, he⟩
      have hjem : j ∈ A' ++ i :: B'' := h2.mem_iff.2 (List.mem_range.2 (by omega))
      have hnd : (A' ++ i :: B'').Nodup := h2.nodup_iff.2 List.nodup_range
      have hjB : j ∈ B'' := by
        rcases List.mem_append.1 hjem with hjA | hjB
        · exfalso
          obtain ⟨P, Q, rfl⟩ := List.append_of_mem hjA
          have := h3 P j (Q ++ i :: B'') (by simp) i (by omega) hcr
          rw [List.nodup_append] at hnd
          exact hnd.2.2 i (by simp [this]) i (by simp) rfl
        · rcases List.mem_cons.1 hjB with rfl | hjB
          · exact absurd rfl hij
          · exact hjB
      exact List.mem_flatten.2 ⟨outs sccs j, List.mem_map.2 ⟨j, hjB, rfl⟩, by simpa [outs, hj] using hwd⟩

end Ferlium.Graph
