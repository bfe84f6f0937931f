import Verif.Proofs.DominanceLoop

/-! The remaining phases: predecessor lists, numbering, children and time stamps. -/
namespace Ferlium.Dominance

open Ferlium.Graph

variable {g : Gr} {entry : Nat} {idx : Nat → Nat}

theorem predecessors_spec (hg : WF g) : ∃ preds, predecessors g = some preds ∧ PredsOf g preds := by
  obtain ⟨preds, h1, h2, h3⟩ := foldlM_inv
    (f := fun (preds : List (List Nat)) (p : List Nat × Nat) =>
      p.1.foldlM (init := preds) fun preds target =>
        match preds[target]? with
        | none => none
        | some l => some (preds.set target (l ++ [p.2])))
    (fun pre (preds : List (List Nat)) => preds.length = g.length ∧
      ∀ (n : Nat) l, preds[n]? = some l → ∀ p, p ∈ l ↔ ∃ ts, (ts, p) ∈ pre ∧ n ∈ ts)
    (l := g.zipIdx) (init := List.replicate g.length []) (by
      refine ⟨by simp, ?_⟩
      intro n l hl p
      rw [List.getElem?_replicate] at hl
      split at hl
      · cases hl; simp
      · simp at hl) (by
      rintro pre ⟨ts, q⟩ post preds hl ⟨q1, q2⟩
      have hq : g[q]? = some ts := List.mem_zipIdx_iff_getElem?.1 (show (ts, q) ∈ g.zipIdx by rw [hl]; simp)
      obtain ⟨preds', k1, k2, k3⟩ := foldlM_inv
        (f := fun (preds : List (List Nat)) target =>
          match preds[target]? with
          | none => none
          | some l => some (preds.set target (l ++ [q])))
        (fun pr (preds' : List (List Nat)) => preds'.length = g.length ∧
          ∀ (n : Nat) l', preds'[n]? = some l' → ∀ p, p ∈ l' ↔ (∃ ts, (ts, p) ∈ pre ∧ n ∈ ts) ∨ (p = q ∧ n ∈ pr))
        (l := ts) (init := preds) ⟨q1, fun n l hl p => by rw [q2 n l hl p]; simp⟩ (by
          intro pr t po preds' hl' ⟨r1, r2⟩
          have ht : t < g.length := hg q t ⟨ts, hq, by rw [hl']; simp⟩
          obtain ⟨l, hl2⟩ : ∃ l, preds'[t]? = some l := ⟨_, List.getElem?_eq_getElem (by rw [r1]; exact ht)⟩
          refine ⟨preds'.set t (l ++ [q]), by simp [hl2], by simp [r1], ?_⟩
          intro n l' hn p
          rw [List.getElem?_set] at hn
          by_cases htn : t = n
          · subst htn
            simp only [if_true, r1, ht, Option.some.injEq] at hn
            subst hn
            rw [List.mem_append, r2 t l hl2 p]
            simp only [List.mem_singleton, List.mem_append, or_true, and_true]
            constructor
            · rintro ((h | ⟨h, -⟩) | h)
              · exact Or.inl h
              · exact Or.inr h
              · exact Or.inr h
            · rintro (h | h)
              · exact Or.inl (Or.inl h)
              · exact Or.inr h
          · simp only [htn, if_false] at hn
            rw [r2 n l' hn p]
            simp [Ne.symm htn])
      refine ⟨preds', k1, k2, ?_⟩
      intro n l hn p
      rw [k3 n l hn p]
      constructor
      · rintro (⟨ts', h1, h2⟩ | ⟨rfl, h2⟩)
        · exact ⟨ts', by simp [h1], h2⟩
        · exact ⟨ts, by simp, h2⟩
      · rintro ⟨ts', h1, h2⟩
        rcases List.mem_append.1 h1 with h1 | h1
        · exact Or.inl ⟨ts', h1, h2⟩
        · simp at h1; obtain ⟨rfl, rfl⟩ := h1; exact Or.inr ⟨rfl, h2⟩)
  refine ⟨preds, h1, h2, ?_⟩
  intro n l hl p
  rw [h3 n l hl p]
  simp only [List.mem_zipIdx_iff_getElem?, Edge]

theorem rpoIndex_spec {n : Nat} {rpo : List Nat} (hnd : rpo.Nodup) (hlt : ∀ v ∈ rpo, v < n) :
    ∃ index, rpoIndex n rpo = some index ∧ ∀ v ∈ rpo, index[v]? = some (some (rpo.idxOf v)) := by
  obtain ⟨index, h1, h2, h3⟩ := foldlM_inv
    (f := fun (index : List (Option Nat)) (p : Nat × Nat) => if p.1 < index.length then some (index.set p.1 (some p.2)) else none)
    (fun pre (index : List (Option Nat)) => index.length = n ∧ ∀ v i, (v, i) ∈ pre → index[v]? = some (some i))
    (l := rpo.zipIdx) (init := List.replicate n none) ⟨by simp, by simp⟩ (by
      rintro pre ⟨v, i⟩ post index hl ⟨q1, q2⟩
      have hvi : rpo[i]? = some v := List.mem_zipIdx_iff_getElem?.1 (show (v, i) ∈ rpo.zipIdx by rw [hl]; simp)
      have hv : v < n := hlt v (List.mem_of_getElem? hvi)
      refine ⟨index.set v (some i), by simp [q1, hv], by simp [q1], ?_⟩
      intro w j hw
      rw [List.getElem?_set]
      by_cases hvw : v = w
      · subst hvw
        have hvj : rpo[j]? = some v := by
          have : (v, j) ∈ rpo.zipIdx := by
            rw [hl]
            rcases List.mem_append.1 hw with h | h
            · simp [h]
            · simp at h; simp [h]
          exact List.mem_zipIdx_iff_getElem?.1 this
        have : i = j := by
          obtain ⟨hi, ei⟩ := List.getElem?_eq_some_iff.1 hvi
          obtain ⟨hj, ej⟩ := List.getElem?_eq_some_iff.1 hvj
          exact (List.Nodup.getElem_inj_iff hnd).1 (by rw [ei, ej])
        simp [q1, hv, this]
      · simp only [hvw, if_false]
        rcases List.mem_append.1 hw with h | h
        · exact q2 w j h
        · simp at h; exact absurd h.1.symm hvw)
  refine ⟨index, h1, ?_⟩
  intro v hv
  exact h3 v _ (List.mem_zipIdx_iff_getElem?.2 (by
    rw [List.getElem?_eq_getElem (List.idxOf_lt_length_of_mem hv)]; simp))

/-! ### Children -/

theorem childLists_spec {rpo : List Nat} {I : List (Option Nat)} {n : Nat} (hlt : ∀ c ∈ rpo.drop 1, ∃ d, I[c]? = some (some d) ∧ d < n)
    (hnd : (rpo.drop 1).Nodup) :
    ∃ ch, childLists n rpo I = some ch ∧ ch.length = n ∧
      ∀ (d : Nat) l, ch[d]? = some l → l.Nodup ∧ ∀ c, c ∈ l ↔ c ∈ rpo.drop 1 ∧ I[c]? = some (some d) := by
  obtain ⟨ch, h1, h2, h3⟩ := foldlM_inv
    (f := fun (children : List (List Nat)) node =>
      match I[node]? with
      | some (some d) =>
        match children[d]? with
        | some l => some (children.set d (l ++ [node]))
        | none => none
      | _ => none)
    (fun pre (ch : List (List Nat)) => ch.length = n ∧
      ∀ (d : Nat) l, ch[d]? = some l → l.Nodup ∧ ∀ c, c ∈ l ↔ c ∈ pre ∧ I[c]? = some (some d))
    (l := rpo.drop 1) (init := List.replicate n []) (by
      refine ⟨by simp, ?_⟩
      intro d l hl
      rw [List.getElem?_replicate] at hl
      split at hl
      · cases hl; simp
      · simp at hl) (by
      intro pre x post ch hl ⟨q1, q2⟩
      obtain ⟨d, hd, hdn⟩ := hlt x (by rw [hl]; simp)
      obtain ⟨l, hl2⟩ : ∃ l, ch[d]? = some l := ⟨_, List.getElem?_eq_getElem (by rw [q1]; exact hdn)⟩
      have hxp : x ∉ pre := by
        intro hc
        rw [hl, List.nodup_append] at hnd
        exact hnd.2.2 x hc x (by simp) rfl
      refine ⟨ch.set d (l ++ [x]), by simp [hd, hl2], by simp [q1], ?_⟩
      intro d' l' hl'
      rw [List.getElem?_set] at hl'
      by_cases hdd : d = d'
      · subst hdd
        simp only [if_true, q1, hdn, Option.some.injEq] at hl'
        subst hl'
        obtain ⟨e1, e2⟩ := q2 d l hl2
        constructor
        · rw [List.nodup_append]
          refine ⟨e1, by simp, ?_⟩
          intro a ha b hb
          simp at hb; subst hb
          rintro rfl
          exact hxp ((e2 a).1 ha).1
        · intro c
          rw [List.mem_append, e2 c]
          simp only [List.mem_singleton, List.mem_append]
          constructor
          · rintro (h | rfl)
            · exact ⟨Or.inl h.1, h.2⟩
            · exact ⟨Or.inr rfl, hd⟩
          · rintro ⟨h | rfl, h2⟩
            · exact Or.inl ⟨h, h2⟩
            · exact Or.inr rfl
      · simp only [hdd, if_false] at hl'
        obtain ⟨e1, e2⟩ := q2 d' l' hl'
        refine ⟨e1, ?_⟩
        intro c
        rw [e2 c]
        simp only [List.mem_append, List.mem_singleton]
        constructor
        · rintro ⟨h1, h2⟩; exact ⟨Or.inl h1, h2⟩
        · rintro ⟨h1 | rfl, h2⟩
          · exact ⟨h1, h2⟩
          · rw [hd] at h2; simp at h2; exact absurd h2 hdd)
  exact ⟨ch, h1, h2, h3⟩

/-! ### Time stamps -/

/-- The children lists describe the tree. -/
structure TreeOK (g : Gr) (entry : Nat) (idx : Nat → Nat) (I : Nat → Option Nat) (ch : List (List Nat)) : Prop where
  tree : TI g entry idx I
  known : ∀ x, Reach g entry x → (I x).isSome = true
  len : ch.length = g.length
  nodup : ∀ (d : Nat) l, ch[d]? = some l → l.Nodup
  mem : ∀ (d : Nat) l, ch[d]? = some l → ∀ c, c ∈ l ↔ c ≠ entry ∧ I c = some d

/-- Preorder and postorder number of a node. -/
def pr (s : Stamps) (x : Nat) : Option Nat := (s.pre[x]?).join
def po (s : Stamps) (x : Nat) : Option Nat := (s.post[x]?).join

/-- The stamps of the nodes in `X` were set between the times of `s` and `s'`, nest like the tree, and the other
nodes are untouched. -/
structure Stamped (entry : Nat) (I : Nat → Option Nat) (X : Nat → Prop) (s s' : Stamps) : Prop where
  lenPre : s'.pre.length = s.pre.length
  lenPost : s'.post.length = s.post.length
  time : s.time ≤ s'.time
  inside : ∀ x, X x → ∃ a b, pr s' x = some a ∧ po s' x = some b ∧ s.time ≤ a ∧ a < b ∧ b < s'.time
  nest : ∀ x y, X x → X y → ∀ a b c d, pr s' x = some a → po s' x = some b → pr s' y = some c → po s' y = some d →
    (Anc entry I y x ↔ a ≤ c ∧ d ≤ b)
  outside : ∀ x, ¬ X x → pr s' x = pr s x ∧ po s' x = po s x

theorem TI.anc_comparable {I : Nat → Option Nat} {n a b : Nat} (h1 : Anc entry I n a) (h2 : Anc entry I n b) :
    Anc entry I a b ∨ Anc entry I b a := by
  induction h1 using Relation.ReflTransGen.head_induction_on with
  | refl => exact Or.inl h2
  | head he hr ih =>
    rcases anc_cases h2 with rfl | ⟨p, -, hp, h⟩
    · exact Or.inr (Relation.ReflTransGen.head he hr)
    · rw [he.2] at hp; cases hp; exact ih h

theorem stamp_node {I : Nat → Option Nat} {ch : List (List Nat)} (hg : WF g) (hent : entry < g.length)
    (hO : TreeOK g entry idx I ch) {M : Nat} (hM : ∀ x, Reach g entry x → idx x < M) :
    ∀ (k v : Nat), M - idx v = k → Reach g entry v → ∀ (s : Stamps) (rest : List (Nat × Bool)), s.pre.length = g.length →
      s.post.length = g.length →
      ∃ s', stampLoop ch ((v, false) :: rest) s = stampLoop ch rest s' ∧ s.time < s'.time ∧
        Stamped entry I (fun x => Reach g entry x ∧ Anc entry I x v) s s' := by
  intro k
  induction k using Nat.strong_induction_on with
  | _ k ih =>
    intro v hk hv s rest hl1 hl2
    have hvl := reach_lt hg hent hv
    obtain ⟨cs, hcs⟩ : ∃ l, ch[v]? = some l := ⟨_, List.getElem?_eq_getElem (by rw [hO.len]; exact hvl)⟩
    have hmem := hO.mem v cs hcs
    -- the list of children
    have hlist : ∀ (l done : List Nat), cs = done ++ l → ∀ (s : Stamps) (rest : List (Nat × Bool)), s.pre.length = g.length →
        s.post.length = g.length →
        ∃ s', stampLoop ch (l.map (fun c => (c, false)) ++ rest) s = stampLoop ch rest s' ∧
          Stamped entry I (fun x => Reach g entry x ∧ ∃ c ∈ l, Anc entry I x c) s s' := by
      intro l
      induction l with
      | nil =>
        intro done _ s rest _ _
        exact ⟨s, rfl, rfl, rfl, le_refl _, by simp, by simp, by simp⟩
      | cons c l ihl =>
        intro done hdone s rest hl1 hl2
        have hcm : c ∈ cs := by rw [hdone]; simp
        obtain ⟨hce, hcI⟩ := (hmem c).1 hcm
        obtain ⟨hcR, -, hci⟩ := hO.tree.par c v hcI
        have hci := hci hce
        have hcM := hM c hcR
        obtain ⟨s1, a1, a2, a3⟩ := ih (M - idx c) (by omega) c rfl hcR s (l.map (fun c => (c, false)) ++ rest) hl1 hl2
        obtain ⟨s2, b1, b2⟩ := ihl (done ++ [c]) (by rw [hdone]; simp) s1 rest (by rw [a3.lenPre, hl1]) (by rw [a3.lenPost, hl2])
        have hnd := hO.nodup v cs hcs
        -- subtrees of different children are disjoint
        have hdisj : ∀ x, Anc entry I x c → ∀ c' ∈ l, ¬ Anc entry I x c' := by
          intro x hx c' hc' hx'
          have hne : c ≠ c' := by
            rintro rfl
            rw [hdone, List.nodup_append] at hnd
            simp only [List.nodup_cons] at hnd
            exact hnd.2.1.1 hc'
          have hc'I := (hmem c').1 (by rw [hdone]; simp [hc'])
          have hc'i := (hO.tree.par c' v hc'I.2).2.2 hc'I.1
          rcases TI.anc_comparable hx hx' with h | h
          · rcases anc_cases h with h | ⟨p, -, hp, h⟩
            · exact hne h.symm
            · rw [hcI] at hp; cases hp
              have := hO.tree.anc_idx h; omega
          · rcases anc_cases h with h | ⟨p, -, hp, h⟩
            · exact hne h
            · rw [hc'I.2] at hp; cases hp
              have := hO.tree.anc_idx h; omega
        have hkeep : ∀ x, Anc entry I x c → pr s2 x = pr s1 x ∧ po s2 x = po s1 x := by
          intro x hx
          exact b2.outside x (fun h => by obtain ⟨-, c', hc', hx'⟩ := h; exact hdisj x hx c' hc' hx')
        refine ⟨s2, by simp only [List.map_cons, List.cons_append]; rw [a1, b1], ?_⟩
        refine ⟨by rw [b2.lenPre, a3.lenPre], by rw [b2.lenPost, a3.lenPost], by have := b2.time; omega, ?_, ?_, ?_⟩
        · rintro x ⟨hxR, c', hc', hx⟩
          rcases List.mem_cons.1 hc' with rfl | hc'
          · obtain ⟨a, b, e1, e2, e3, e4, e5⟩ := a3.inside x ⟨hxR, hx⟩
            have := hkeep x hx
            exact ⟨a, b, by rw [this.1, e1], by rw [this.2, e2], e3, e4, by have := b2.time; omega⟩
          · obtain ⟨a, b, e1, e2, e3, e4, e5⟩ := b2.inside x ⟨hxR, c', hc', hx⟩
            exact ⟨a, b, e1, e2, by omega, e4, e5⟩
        · rintro x y ⟨hxR, cx, hcx, hx⟩ ⟨hyR, cy, hcy, hy⟩ a b c' d e1 e2 e3 e4
          have hcx' := List.mem_cons.1 hcx
          have hcy' := List.mem_cons.1 hcy
          clear hcx hcy
          rcases hcx' with rfl | hcx <;> rcases hcy' with rfl | hcy
          · rw [(hkeep x hx).1] at e1; rw [(hkeep x hx).2] at e2
            rw [(hkeep y hy).1] at e3; rw [(hkeep y hy).2] at e4
            exact a3.nest x y ⟨hxR, hx⟩ ⟨hyR, hy⟩ a b c' d e1 e2 e3 e4
          · obtain ⟨a', b', f1, f2, f3, f4, f5⟩ := a3.inside x ⟨hxR, hx⟩
            obtain ⟨c'', d', f6, f7, f8, f9, f10⟩ := b2.inside y ⟨hyR, cy, hcy, hy⟩
            rw [(hkeep x hx).1, f1] at e1; rw [(hkeep x hx).2, f2] at e2
            rw [f6] at e3; rw [f7] at e4
            cases e1; cases e2; cases e3; cases e4
            constructor
            · intro h
              exact absurd hy (hdisj y (Relation.ReflTransGen.trans h hx) cy hcy)
            · rintro ⟨h1, h2⟩; omega
          · obtain ⟨a', b', f1, f2, f3, f4, f5⟩ := a3.inside y ⟨hyR, hy⟩
            obtain ⟨c'', d', f6, f7, f8, f9, f10⟩ := b2.inside x ⟨hxR, cx, hcx, hx⟩
            rw [(hkeep y hy).1, f1] at e3; rw [(hkeep y hy).2, f2] at e4
            rw [f6] at e1; rw [f7] at e2
            cases e1; cases e2; cases e3; cases e4
            constructor
            · intro h
              exact absurd (Relation.ReflTransGen.trans h hx) (hdisj y hy cx hcx)
            · rintro ⟨h1, h2⟩; omega
          · exact b2.nest x y ⟨hxR, cx, hcx, hx⟩ ⟨hyR, cy, hcy, hy⟩ a b c' d e1 e2 e3 e4
        · intro x hx
          have h1 : ¬ (Reach g entry x ∧ Anc entry I x c) := fun h => hx ⟨h.1, c, by simp, h.2⟩
          have h2 : ¬ (Reach g entry x ∧ ∃ c ∈ l, Anc entry I x c) := by
            rintro ⟨h, c', hc', h3⟩; exact hx ⟨h, c', by simp [hc'], h3⟩
          rw [(b2.outside x h2).1, (b2.outside x h2).2]
          exact a3.outside x h1
    obtain ⟨s1, a1, a2⟩ := hlist cs [] rfl
      { s with pre := s.pre.set v (some s.time), time := s.time + 1 } ((v, true) :: rest) (by simpa using hl1) hl2
    have hl2' : s1.post.length = g.length := by rw [a2.lenPost]; exact hl2
    have hl1' : s1.pre.length = g.length := by rw [a2.lenPre]; simpa using hl1
    have htime : s.time + 1 ≤ s1.time := a2.time
    refine ⟨{ s1 with post := s1.post.set v (some s1.time), time := s1.time + 1 }, ?_, ?_, ?_⟩
    · rw [stampLoop]
      simp only [hl1, hvl, if_true, hcs]
      rw [a1, stampLoop]
      simp only [hl2', hvl, if_true]
    · show s.time < s1.time + 1; omega
    -- a proper descendant is below a child
    have hbelow : ∀ x, Reach g entry x → Anc entry I x v → x ≠ v → ∃ c ∈ cs, Anc entry I x c := by
      intro x hxR hx hne
      induction hx using Relation.ReflTransGen.head_induction_on with
      | refl => exact absurd rfl hne
      | head he hr ihx =>
        rename_i b q
        by_cases hq : q = v
        · subst hq; exact ⟨b, (hmem b).2 he, anc_refl _ _⟩
        · obtain ⟨c, h1, h2⟩ := ihx (hO.tree.reach (hO.tree.par b q he.2).2.1) hq
          exact ⟨c, h1, anc_head he.1 he.2 h2⟩
    have habove : ∀ x, (∃ c ∈ cs, Anc entry I x c) → Anc entry I x v ∧ x ≠ v := by
      rintro x ⟨c, hc, hx⟩
      obtain ⟨e1, e2⟩ := (hmem c).1 hc
      refine ⟨Relation.ReflTransGen.tail hx ⟨e1, e2⟩, ?_⟩
      rintro rfl
      have := (hO.tree.par c x e2).2.2 e1
      have := hO.tree.anc_idx hx
      omega
    have hpv : pr s1 v = some s.time := by
      have h : ¬ (Reach g entry v ∧ ∃ c ∈ cs, Anc entry I v c) := fun h => (habove v h.2).2 rfl
      rw [(a2.outside v h).1]
      simp [pr, List.getElem?_set, hl1, hvl]
    have hprS : ∀ x, pr { s1 with post := s1.post.set v (some s1.time), time := s1.time + 1 } x = pr s1 x := fun _ => rfl
    have hpoV : po { s1 with post := s1.post.set v (some s1.time), time := s1.time + 1 } v = some s1.time := by
      simp [po, List.getElem?_set, hl2', hvl]
    have hpoS : ∀ x, x ≠ v → po { s1 with post := s1.post.set v (some s1.time), time := s1.time + 1 } x = po s1 x := by
      intro x hx
      simp [po, List.getElem?_set, Ne.symm hx]
    refine ⟨by simp [hl1', hl1], by simp [hl2', hl2], by show s.time ≤ s1.time + 1; omega, ?_, ?_, ?_⟩
    · rintro x ⟨hxR, hx⟩
      show ∃ a b, _ ∧ _ ∧ _ ∧ _ ∧ b < s1.time + 1
      by_cases hxv : x = v
      · subst hxv
        exact ⟨s.time, s1.time, by rw [hprS, hpv], hpoV, le_refl _, by omega, by omega⟩
      · obtain ⟨a, b, e1, e2, e3, e4, e5⟩ := a2.inside x ⟨hxR, hbelow x hxR hx hxv⟩
        have e3 : s.time + 1 ≤ a := e3
        exact ⟨a, b, by rw [hprS, e1], by rw [hpoS x hxv, e2], by omega, e4, by omega⟩
    · rintro x y ⟨hxR, hx⟩ ⟨hyR, hy⟩ a b c d e1 e2 e3 e4
      rw [hprS] at e1 e3
      by_cases hxv : x = v <;> by_cases hyv : y = v
      · subst hxv; subst hyv
        rw [hpv] at e1 e3; rw [hpoV] at e2 e4
        cases e1; cases e2; cases e3; cases e4
        simp [anc_refl]
      · subst hxv
        rw [hpv] at e1; rw [hpoV] at e2
        rw [hpoS y hyv] at e4
        obtain ⟨a', b', f1, f2, f3, f4, f5⟩ := a2.inside y ⟨hyR, hbelow y hyR hy hyv⟩
        rw [f1] at e3; rw [f2] at e4
        cases e1; cases e2; cases e3; cases e4
        have f3 : s.time + 1 ≤ c := f3
        simp only [hy, true_iff]
        omega
      · subst hyv
        rw [hpv] at e3; rw [hpoV] at e4
        rw [hpoS x hxv] at e2
        obtain ⟨a', b', f1, f2, f3, f4, f5⟩ := a2.inside x ⟨hxR, hbelow x hxR hx hxv⟩
        rw [f1] at e1; rw [f2] at e2
        cases e1; cases e2; cases e3; cases e4
        have f3 : s.time + 1 ≤ a := f3
        constructor
        · intro h; exact absurd (hO.tree.anc_eq hx h) hxv
        · rintro ⟨h1, h2⟩; omega
      · rw [hpoS x hxv] at e2; rw [hpoS y hyv] at e4
        exact a2.nest x y ⟨hxR, hbelow x hxR hx hxv⟩ ⟨hyR, hbelow y hyR hy hyv⟩ a b c d e1 e2 e3 e4
    · intro x hx
      have hxv : x ≠ v := by rintro rfl; exact hx ⟨hv, anc_refl _ _⟩
      have h1 : ¬ (Reach g entry x ∧ ∃ c ∈ cs, Anc entry I x c) := fun h => hx ⟨h.1, (habove x h.2).1⟩
      rw [hprS, hpoS x hxv, (a2.outside x h1).1, (a2.outside x h1).2]
      exact ⟨by simp [pr, List.getElem?_set, Ne.symm hxv], rfl⟩

/-- The whole computation. -/
theorem compute_spec (hg : WF g) (hent : entry < g.length) :
    ∃ d I idx time, compute g entry = some d ∧ TI g entry idx I ∧ (∀ n, Reach g entry n → (I n).isSome = true) ∧
      d.children.length = g.length ∧ d.preorder.length = g.length ∧ d.postorder.length = g.length ∧
      (∀ n a, Reach g entry n → (Anc entry I n a ↔ DomW g entry n a)) ∧
      (∀ (x : Nat) l, d.children[x]? = some l → l.Nodup ∧ ∀ c, c ∈ l ↔ c ≠ entry ∧ I c = some x) ∧
      Stamped entry I (fun x => Reach g entry x)
        ⟨List.replicate g.length none, List.replicate g.length none, 0⟩ ⟨d.preorder, d.postorder, time⟩ := by
  obtain ⟨preds, p1, p2⟩ := predecessors_spec hg
  obtain ⟨rpo, r1, r2, r3, r4, -, r6⟩ := rpo_final hg hent
  obtain ⟨index, i1, i2⟩ := rpoIndex_spec r2 (fun v hv => reach_lt hg hent ((r3 v).1 hv))
  obtain ⟨t, ht⟩ : ∃ t, rpo = entry :: t := by
    cases h : rpo with
    | nil => rw [h] at r4; simp at r4
    | cons a t => rw [h] at r4; simp at r4; exact ⟨t, by rw [r4]⟩
  have hN : Numbering g entry (fun v => rpo.idxOf v) := by
    refine ⟨by rw [ht]; simp, ?_, ?_⟩
    · intro u v hu _ h
      exact (List.idxOf_inj ((r3 u).2 hu)).1 h
    · intro n hn hne
      obtain ⟨A, B, hAB⟩ := List.append_of_mem ((r3 n).2 hn)
      obtain ⟨p, hp, he⟩ := r6 A n B hAB hne
      have hnd := r2
      rw [hAB, List.nodup_append] at hnd
      have hnA : n ∉ A := fun hc => hnd.2.2 n hc n (by simp) rfl
      refine ⟨p, (r3 p).1 (by rw [hAB]; simp [hp]), he, ?_⟩
      show rpo.idxOf p < rpo.idxOf n
      rw [hAB, List.idxOf_append_of_mem hp, List.idxOf_append_of_notMem hnA]
      have := List.idxOf_lt_length_of_mem hp
      omega
  have hO : Order g entry (fun v => rpo.idxOf v) rpo := by
    refine ⟨r3, r4, ?_⟩
    intro i v hv
    obtain ⟨hi, rfl⟩ := List.getElem?_eq_some_iff.1 hv
    exact List.Nodup.idxOf_getElem r2 i hi
  have hix : Indexed g entry (fun v => rpo.idxOf v) index := fun x hx => i2 x ((r3 x).2 hx)
  obtain ⟨I, d1, d2, d3⟩ := domLoop_spec hg hent hN hO p2 hix
  have hdrop : ∀ c, c ∈ rpo.drop 1 ↔ Reach g entry c ∧ c ≠ entry := by
    intro c
    rw [← r3 c, ht]
    rw [ht] at r2
    simp only [List.drop_succ_cons, List.drop_zero, List.mem_cons]
    simp only [List.nodup_cons] at r2
    constructor
    · intro h; exact ⟨Or.inr h, by rintro rfl; exact r2.1 h⟩
    · rintro ⟨h | h, h2⟩
      · exact absurd h h2
      · exact h
  obtain ⟨ch, c1, c2, c3⟩ := childLists_spec (rpo := rpo) (I := I) (n := g.length) (by
    intro c hc
    obtain ⟨p, hp⟩ := Option.isSome_iff_exists.1 (d3.known c ((hdrop c).1 hc).1)
    exact ⟨p, fn_eq_some.1 hp, reach_lt hg hent (d3.tree.reach (d3.tree.par c p hp).2.1)⟩)
    (r2.sublist (List.drop_sublist 1 rpo))
  have hmem : ∀ (x : Nat) l, ch[x]? = some l → ∀ c, c ∈ l ↔ c ≠ entry ∧ fn I c = some x := by
    intro x l hl c
    rw [(c3 x l hl).2 c, hdrop, ← fn_eq_some]
    constructor
    · rintro ⟨⟨-, h⟩, h2⟩; exact ⟨h, h2⟩
    · rintro ⟨h, h2⟩; exact ⟨⟨(d3.tree.par c x h2).1, h⟩, h2⟩
  have hTO : TreeOK g entry (fun v => rpo.idxOf v) (fn I) ch := ⟨d3.tree, d3.known, c2, fun d l hl => (c3 d l hl).1, hmem⟩
  obtain ⟨s', s1, -, s3⟩ := stamp_node hg hent hTO (M := rpo.length)
    (fun x hx => List.idxOf_lt_length_of_mem ((r3 x).2 hx)) _ entry rfl (reach_refl _ _)
    ⟨List.replicate g.length none, List.replicate g.length none, 0⟩ [] (by simp) (by simp)
  have hX : (fun x => Reach g entry x ∧ Anc entry (fn I) x entry) = (fun x => Reach g entry x) := by
    funext x
    simp only [eq_iff_iff, and_iff_left_iff_imp]
    intro hx
    exact d3.tree.anc_root _ x rfl (d3.known x hx)
  rw [hX] at s3
  refine ⟨⟨ch, s'.pre, s'.post⟩, fn I, _, s'.time, ?_, d3.tree, d3.known, c2, ?_, ?_, ?_, ?_, s3⟩
  · simp only [compute, p1, r1, i1, d1, c1, s1, Option.bind_eq_bind, Option.bind_some]
    rw [stampLoop]
    rfl
  · rw [s3.lenPre]; simp
  · rw [s3.lenPost]; simp
  · intro n a hn; exact fixpoint_exact d3 hn a
  · intro x l hl; exact ⟨(c3 x l hl).1, hmem x l hl⟩

end Ferlium.Dominance
