import Verif.Proofs.Cse

/-! Numbering of address computations: the walk over the dominator tree. -/
namespace Ferlium.Cse

open Ferlium.Mir Ferlium.Dominance Ferlium.Edit Ferlium.Graph
open Ferlium.Negation (Site opAt opAt_some Before before_iff before_op before_jump before_irrefl not_before_start site_unique)

variable {f : Body}

/-- The operations in the blocks `B` and the first operations of the block `b`. -/
def Done (B : Nat → Prop) (b i : Nat) (q : Site) : Prop := B q.block ∨ (q.block = b ∧ q.index < i)

/-- The situation in front of the block `b`. -/
structure Door (f : Body) (B : Nat → Prop) (b : Nat) : Prop where
  closed : ∀ x y, B x → DomW (graphOf f) 0 x y → B y
  above : ∀ y, y ≠ b → DomW (graphOf f) 0 b y → B y
  fresh : ¬ B b
  reach : Reachable f b

theorem Door.front {B : Nat → Prop} {b : Nat} (h : Door f B b) (i : Nat) : Front f (Done B b i) ⟨b, i⟩ := by
  refine ⟨?_, ?_, ?_, h.reach⟩
  · intro q q' _ hq _ hb
    rw [before_iff] at hb
    rcases hq with hq | ⟨hq, hi⟩
    · rcases hb with ⟨e, _⟩ | ⟨_, hd⟩
      · exact Or.inl (by rw [e]; exact hq)
      · exact Or.inl (h.closed _ _ hq hd)
    · rcases hb with ⟨e, hl⟩ | ⟨hne, hd⟩
      · exact Or.inr ⟨e.trans hq, by omega⟩
      · exact Or.inl (h.above _ (fun e => hne (e.trans hq.symm)) (by rw [← hq]; exact hd))
  · intro q' _ _ hb
    rw [before_iff] at hb
    rcases hb with ⟨e, hl⟩ | ⟨hne, hd⟩
    · exact Or.inr ⟨e, hl⟩
    · exact Or.inl (h.above _ hne hd)
  · rintro (hq | ⟨_, hq⟩)
    · exact h.fresh hq
    · exact absurd hq (Nat.lt_irrefl _)

theorem Glob.congr {D D' : Site → Prop} {M R : List (Nat × Nat)} (h : Glob f D M R)
    (hD : ∀ q op, opAt f q = some op → (D q ↔ D' q)) : Glob f D' M R := by
  refine ⟨?_, h.final, h.removed, ?_⟩
  · intro x c hx
    obtain ⟨q, q', o, o', h1, h2, h3⟩ := h.pairs x c hx
    exact ⟨q, q', o, o', (hD q o h2).1 h1, h2, h3⟩
  · intro ho q o hq h1
    exact h.complete ho q o ((hD q o h1).2 hq) h1

theorem numberOps_spec (hs : SingleAssignment f) (hd : DefsFirst f) (hN : Named f) {B : Nat → Prop} {b : Nat} {blk : Block}
    (hb : f[b]? = some blk) (hB : Door f B b) : ∀ (ops pre : List Op), blk.ops = pre ++ ops → ∀ (s : State) (u : Log),
    Glob f (Done B b pre.length) s.merged s.removed → Loc f s.available ⟨b, pre.length⟩ s.merged →
    ∃ s' new l, numberOps b pre.length ops s u = some (s', new ++ u) ∧
      Glob f (Done B b blk.ops.length) s'.merged s'.removed ∧ Loc f s'.available ⟨b, blk.ops.length⟩ s'.merged ∧
      (∀ e, look (undoAll new s'.available) e = look s.available e) ∧ s'.merged = l ++ s.merged ∧
      ∀ x c, (x, c) ∈ l → ∃ q op, q.block = b ∧ opAt f q = some op ∧ op.result = some x := by
  intro ops
  induction ops with
  | nil =>
    intro pre hpre s u hG hL
    have : blk.ops.length = pre.length := by rw [hpre]; simp
    rw [this]
    exact ⟨s, [], [], rfl, hG, hL, fun e => rfl, rfl, by simp⟩
  | cons op ops ih =>
    intro pre hpre s u hG hL
    have hget : blk.ops[pre.length]? = some op := by rw [hpre]; simp
    have hop : opAt f ⟨b, pre.length⟩ = some op := opAt_some.2 ⟨blk, hb, hget⟩
    obtain ⟨s1, n1, l1, a1, a2, a3, a4, a5, a6⟩ := numberOp_spec hs hd hN (hB.front pre.length) hop u hG hL
    have hG1 : Glob f (Done B b (pre ++ [op]).length) s1.merged s1.removed := by
      refine a2.congr ?_
      intro q _ _
      simp only [Done, List.length_append, List.length_singleton]
      constructor
      · rintro ((h | ⟨h, h'⟩) | rfl)
        · exact Or.inl h
        · exact Or.inr ⟨h, by omega⟩
        · exact Or.inr ⟨rfl, Nat.lt_succ_self _⟩
      · rintro (h | ⟨h, h'⟩)
        · exact Or.inl (Or.inl h)
        · rcases Nat.lt_succ_iff_lt_or_eq.1 h' with h' | h'
          · exact Or.inl (Or.inr ⟨h, h'⟩)
          · right
            cases q
            simp only [] at h h'
            subst h; subst h'; rfl
    obtain ⟨s2, n2, l2, b1, b2, b3, b4, b5, b6⟩ := ih (pre ++ [op]) (by rw [hpre]; simp) s1 (n1 ++ u) hG1
      (by simpa using a3)
    refine ⟨s2, n2 ++ n1, l2 ++ l1, ?_, b2, b3, ?_, by rw [b5, a5, List.append_assoc], ?_⟩
    · rw [numberOps, a1]
      simp only []
      rw [List.append_assoc, ← b1]
      simp
    · intro e
      rw [undoAll_append, undoAll_congr n1 b4 e, a4]
    · intro x c hx
      rcases List.mem_append.1 hx with hx | hx
      · exact b6 x c hx
      · exact ⟨_, op, rfl, hop, a6 x c hx⟩

/-- Two tables with the same lookups. -/
theorem Loc.congr {a a' : Table} {p : Site} {M : List (Nat × Nat)} (h : Loc f a p M) (hn : (keys a').Nodup)
    (he : ∀ e, look a' e = look a e) : Loc f a' p M := by
  refine ⟨hn, ?_, ?_⟩
  · intro e v hv
    rw [he] at hv
    exact h.sound e v hv
  · intro q op h1 h2 h3 h4
    rw [he]
    exact h.complete q op h1 h2 h3 h4

/-- From the end of a block to the start of a block it immediately dominates. -/
theorem Loc.child {a : Table} {v c : Nat} {blk : Block} {M : List (Nat × Nat)} (hv : f[v]? = some blk)
    (hcr : Reachable f c) (hne : v ≠ c) (hvc : DomW (graphOf f) 0 c v)
    (him : ∀ x, x ≠ c → DomW (graphOf f) 0 c x → DomW (graphOf f) 0 v x)
    (h : Loc f a ⟨v, blk.ops.length⟩ M) : Loc f a ⟨c, 0⟩ M := by
  have hto : ∀ q, Before f q ⟨v, blk.ops.length⟩ → Before f q ⟨c, 0⟩ := by
    intro q hq
    rw [before_iff] at hq ⊢
    right
    rcases hq with ⟨e, _⟩ | ⟨hne', hd⟩
    · have e : q.block = v := e
      rw [e]; exact ⟨hne, hvc⟩
    · refine ⟨?_, dom_trans hd hvc⟩
      intro e
      have e : q.block = c := e
      rw [e] at hd
      exact hne (dom_antisymm (reach_graphOf.2 hcr) hvc hd).symm
  have hfrom : ∀ q op, opAt f q = some op → Before f q ⟨c, 0⟩ → Before f q ⟨v, blk.ops.length⟩ := by
    intro q op hop hq
    rw [before_iff] at hq ⊢
    rcases hq with ⟨_, hl⟩ | ⟨hne', hd⟩
    · exact absurd hl (Nat.not_lt_zero _)
    · by_cases e : q.block = v
      · left
        refine ⟨e, ?_⟩
        obtain ⟨blk', k1, k2⟩ := opAt_some.1 hop
        rw [e, hv] at k1
        cases k1
        exact (List.getElem?_eq_some_iff.1 k2).1
      · exact Or.inr ⟨e, him _ hne' hd⟩
  refine ⟨h.nodup, ?_, ?_⟩
  · intro e w he
    obtain ⟨q, op, h1, h2, h3, h4, h5, h6, h7, h8⟩ := h.sound e w he
    exact ⟨q, op, h1, h2, h3, hto q h4, h5, h6, h7, fun hm z oz k1 k2 k3 k4 => h8 hm z oz k1 k2 k3 (hfrom z oz k1 k4)⟩
  · intro q op h1 h2 h3 h4
    exact h.complete q op h1 (hfrom q op h1 h2) h3 fun hm z oz k1 k2 k3 k4 => h4 hm z oz k1 k2 k3 (hto z k4)

/-- What the dominator tree provides. -/
structure Tree (f : Body) (idx : Nat → Nat) (I : Nat → Option Nat) (ch : List (List Nat)) : Prop where
  tree : TI (graphOf f) 0 idx I
  anc : ∀ n a, Reach (graphOf f) 0 n → (Anc 0 I n a ↔ DomW (graphOf f) 0 n a)
  len : ch.length = f.length
  nodup : ∀ (d : Nat) l, ch[d]? = some l → l.Nodup
  mem : ∀ (d : Nat) l, ch[d]? = some l → ∀ c, c ∈ l ↔ c ≠ 0 ∧ I c = some d

/-- The walk over the subtree of `v`. -/
theorem walk_node (hr : InRange f) (hne : f ≠ []) (hs : SingleAssignment f) (hd : DefsFirst f) (hN : Named f)
    {idx : Nat → Nat} {I : Nat → Option Nat} {ch : List (List Nat)} (hT : Tree f idx I ch) {top : Nat}
    (htop : ∀ x, Reachable f x → idx x < top) :
    ∀ (k v : Nat), top - idx v = k → Reachable f v → ∀ (B : Nat → Prop) (s : State) (u : Log) (rest : List (Nat × Enter)),
      Door f B v → (∀ x, Reachable f x → Anc 0 I x v → ¬ B x) →
      Glob f (fun q => B q.block) s.merged s.removed → Loc f s.available ⟨v, 0⟩ s.merged →
      ∃ s' l, walk f ch ((v, .down) :: rest) s u = walk f ch rest s' u ∧
        Glob f (fun q => B q.block ∨ (Reachable f q.block ∧ Anc 0 I q.block v)) s'.merged s'.removed ∧
        (keys s'.available).Nodup ∧ (∀ e, look s'.available e = look s.available e) ∧ s'.merged = l ++ s.merged ∧
        ∀ x c, (x, c) ∈ l → ∃ q op, Reachable f q.block ∧ Anc 0 I q.block v ∧ opAt f q = some op ∧ op.result = some x := by
  intro k
  induction k using Nat.strong_induction_on with
  | _ k ih =>
    intro v hk hv B s u rest hdoor hsub hG hL
    have hvl := reachable_lt hr hne hv
    obtain ⟨blk, hblk⟩ : ∃ blk, f[v]? = some blk := ⟨_, List.getElem?_eq_getElem hvl⟩
    obtain ⟨cs, hcs⟩ : ∃ l, ch[v]? = some l := ⟨_, List.getElem?_eq_getElem (by rw [hT.len]; exact hvl)⟩
    have hmem := hT.mem v cs hcs
    have hnd := hT.nodup v cs hcs
    have hG0 : Glob f (Done B v 0) s.merged s.removed := hG.congr fun q _ _ => by simp [Done]
    obtain ⟨s1, n1, l1, a1, a2, a3, a4, a5, a6⟩ := numberOps_spec hs hd hN hblk hdoor blk.ops [] rfl s u hG0 hL
    have hG1 : Glob f (fun q => B q.block ∨ q.block = v) s1.merged s1.removed := by
      refine a2.congr ?_
      intro q op hop
      unfold Done
      constructor
      · rintro (h | ⟨h, _⟩)
        · exact Or.inl h
        · exact Or.inr h
      · rintro (h | h)
        · exact Or.inl h
        · refine Or.inr ⟨h, ?_⟩
          obtain ⟨blk', k1, k2⟩ := opAt_some.1 hop
          rw [h, hblk] at k1
          cases k1
          exact (List.getElem?_eq_some_iff.1 k2).1
    -- facts about children
    have hchild : ∀ c ∈ cs, Reachable f c ∧ idx v < idx c ∧ I c = some v ∧ c ≠ 0 ∧ DomW (graphOf f) 0 c v ∧
        (∀ x, x ≠ c → DomW (graphOf f) 0 c x → DomW (graphOf f) 0 v x) := by
      intro c hc
      obtain ⟨hc0, hcI⟩ := (hmem c).1 hc
      obtain ⟨hcR, -, hci⟩ := hT.tree.par c v hcI
      refine ⟨reach_graphOf.1 hcR, hci hc0, hcI, hc0, (hT.anc c v hcR).1 (anc_head hc0 hcI (anc_refl _ _)), ?_⟩
      intro x hx hdx
      rcases anc_cases ((hT.anc c x hcR).2 hdx) with h | ⟨p, -, hp, h⟩
      · exact absurd h hx
      · rw [hcI] at hp; cases hp
        exact (hT.anc v x (reach_graphOf.2 hv)).1 h
    -- the children, one after the other
    have hlist : ∀ (l done : List Nat), cs.reverse = done ++ l → ∀ (C : Nat → Prop) (s2 : State) (u' : Log)
        (rest : List (Nat × Enter)),
        (∀ x, C x ↔ (B x ∨ x = v) ∨ (Reachable f x ∧ ∃ c ∈ done, Anc 0 I x c)) →
        Glob f (fun q => C q.block) s2.merged s2.removed → (keys s2.available).Nodup →
        (∀ e, look s2.available e = look s1.available e) →
        (∃ l2, s2.merged = l2 ++ s1.merged ∧ ∀ x c, (x, c) ∈ l2 → ∃ q op, Reachable f q.block ∧
          (∃ c ∈ cs, Anc 0 I q.block c) ∧ opAt f q = some op ∧ op.result = some x) →
        ∃ s' l2, walk f ch (l.map (fun c => (c, Enter.down)) ++ rest) s2 u' = walk f ch rest s' u' ∧
          Glob f (fun q => (B q.block ∨ q.block = v) ∨ (Reachable f q.block ∧ ∃ c ∈ cs, Anc 0 I q.block c))
            s'.merged s'.removed ∧ (keys s'.available).Nodup ∧ (∀ e, look s'.available e = look s1.available e) ∧
          s'.merged = l2 ++ s1.merged ∧ ∀ x c, (x, c) ∈ l2 → ∃ q op, Reachable f q.block ∧
            (∃ c ∈ cs, Anc 0 I q.block c) ∧ opAt f q = some op ∧ op.result = some x := by
      intro l
      induction l with
      | nil =>
        intro done hdone C s2 u' rest hC hG2 hn2 he2 hl2
        obtain ⟨l2, hl2, hl2'⟩ := hl2
        refine ⟨s2, l2, rfl, hG2.congr ?_, hn2, he2, hl2, hl2'⟩
        intro q _ _
        rw [hC]
        have : ∀ c, c ∈ done ↔ c ∈ cs := by
          intro c
          rw [← List.mem_reverse (as := cs), hdone]; simp
        simp only [this]
      | cons c l ihl =>
        intro done hdone C s2 u' rest hC hG2 hn2 he2 hl2
        obtain ⟨l2, hl2, hl2'⟩ := hl2
        have hccs : c ∈ cs := by rw [← List.mem_reverse, hdone]; simp
        obtain ⟨hcR, hci, hcI, hc0, hcv, him⟩ := hchild c hccs
        have hcM := htop c hcR
        have hvc : v ≠ c := by rintro rfl; omega
        -- blocks under `c` are not done
        have hsubc : ∀ x, Reachable f x → Anc 0 I x c → ¬ C x := by
          intro x hx hxc hCx
          have hxv : Anc 0 I x v := Relation.ReflTransGen.trans hxc (anc_head hc0 hcI (anc_refl _ _))
          rw [hC] at hCx
          rcases hCx with (h | h) | ⟨_, c', hc', h⟩
          · exact hsub x hx hxv h
          · subst h
            have := hT.tree.anc_idx hxc
            omega
          · have hc's : c' ∈ cs := by rw [← List.mem_reverse, hdone]; simp [hc']
            obtain ⟨_, hc'i, hc'I, hc'0, _⟩ := hchild c' hc's
            have hnecc : c ≠ c' := by
              rintro rfl
              have hnd' : cs.reverse.Nodup := List.nodup_reverse.2 hnd
              rw [hdone, List.nodup_append] at hnd'
              exact hnd'.2.2 c hc' c (by simp) rfl
            rcases TI.anc_comparable hxc h with h' | h'
            · rcases anc_cases h' with h' | ⟨p, -, hp, h'⟩
              · exact hnecc h'.symm
              · rw [hcI] at hp; cases hp
                have := hT.tree.anc_idx h'; omega
            · rcases anc_cases h' with h' | ⟨p, -, hp, h'⟩
              · exact hnecc h'
              · rw [hc'I] at hp; cases hp
                have := hT.tree.anc_idx h'; omega
        have hclosed : ∀ x y, C x → DomW (graphOf f) 0 x y → C y := by
          intro x y hx hxy
          rw [hC] at hx ⊢
          rcases hx with (hx | rfl) | ⟨hxr, c', hc', hx⟩
          · exact Or.inl (Or.inl (hdoor.closed x y hx hxy))
          · by_cases e : y = x
            · exact Or.inl (Or.inr e)
            · exact Or.inl (Or.inl (hdoor.above y e hxy))
          · have hxy' := (hT.anc x y (reach_graphOf.2 hxr)).2 hxy
            have hyr := (hT.tree.reach (hT.tree.anc_known (by
              rcases anc_cases hx with h | ⟨p, _, hp, _⟩
              · have hc's : c' ∈ cs := by rw [← List.mem_reverse, hdone]; simp [hc']
                rw [← h, (hchild c' hc's).2.2.1]; rfl
              · rw [hp]; rfl) hxy'))
            rcases TI.anc_comparable hx hxy' with h | h
            · rcases anc_cases h with h | ⟨p, _, hp, h⟩
              · exact Or.inr ⟨reach_graphOf.1 hyr, c', hc', by rw [h]; exact anc_refl _ _⟩
              · have hc's : c' ∈ cs := by rw [← List.mem_reverse, hdone]; simp [hc']
                rw [(hchild c' hc's).2.2.1] at hp; cases hp
                have hd' := (hT.anc v y (reach_graphOf.2 hv)).1 h
                by_cases e : y = v
                · exact Or.inl (Or.inr e)
                · exact Or.inl (Or.inl (hdoor.above y e hd'))
            · exact Or.inr ⟨reach_graphOf.1 hyr, c', hc', h⟩
        have hdoorc : Door f C c := by
          refine ⟨hclosed, ?_, hsubc c hcR (anc_refl _ _), hcR⟩
          intro y hy hdy
          have := him y hy hdy
          rw [hC]
          by_cases e : y = v
          · exact Or.inl (Or.inr e)
          · exact Or.inl (Or.inl (hdoor.above y e this))
        have hLc : Loc f s2.available ⟨c, 0⟩ s2.merged := by
          have h1 : Loc f s1.available ⟨c, 0⟩ s1.merged := a3.child hblk hcR hvc hcv him
          have h2 : Loc f s2.available ⟨c, 0⟩ s1.merged := h1.congr hn2 he2
          rw [hl2]
          refine h2.grow (D := fun q => B q.block ∨ q.block = v) hs hd ?_ ?_ ?_
          · intro x c' hx
            obtain ⟨q, op, k1, ⟨c2, k2, k3⟩, k4, k5⟩ := hl2' x c' hx
            refine ⟨q, op, ?_, k4, k5⟩
            have hc2 := hchild c2 k2
            rintro (h | h)
            · exact hsub _ k1 (Relation.ReflTransGen.trans k3 (anc_head hc2.2.2.2.1 hc2.2.2.1 (anc_refl _ _))) h
            · rw [h] at k3
              have := hT.tree.anc_idx k3
              omega
          · intro q' _ _ hb
            rw [before_iff] at hb
            rcases hb with ⟨_, hlt⟩ | ⟨hne', hdq⟩
            · exact absurd hlt (Nat.not_lt_zero _)
            · have := him _ hne' hdq
              by_cases e : q'.block = v
              · exact Or.inr e
              · exact Or.inl (hdoor.above _ e this)
          · intro q q' _ hq _ hb
            rw [before_iff] at hb
            rcases hb with ⟨e, _⟩ | ⟨hne', hdq⟩
            · rw [e]; exact hq
            · rcases hq with hq | hq
              · exact Or.inl (hdoor.closed _ _ hq hdq)
              · rw [hq] at hdq hne'
                exact Or.inl (hdoor.above _ hne' hdq)
        obtain ⟨s3, l3, b1, b2, b3, b4, b5, b6⟩ := ih (top - idx c) (by omega) c rfl hcR C s2 u'
          (l.map (fun c => (c, Enter.down)) ++ rest) hdoorc hsubc hG2 hLc
        obtain ⟨s4, l4, c1, c2⟩ := ihl (done ++ [c]) (by rw [hdone]; simp)
          (fun x => C x ∨ (Reachable f x ∧ Anc 0 I x c)) s3 u' rest (by
            intro x
            rw [hC]
            simp only [List.mem_append, List.mem_singleton]
            constructor
            · rintro ((h | ⟨h, c', h1, h2⟩) | ⟨h1, h2⟩)
              · exact Or.inl h
              · exact Or.inr ⟨h, c', Or.inl h1, h2⟩
              · exact Or.inr ⟨h1, c, Or.inr rfl, h2⟩
            · rintro (h | ⟨h, c', h1 | h1, h2⟩)
              · exact Or.inl (Or.inl h)
              · exact Or.inl (Or.inr ⟨h, c', h1, h2⟩)
              · subst h1; exact Or.inr ⟨h, h2⟩) b2 b3 (fun e => (b4 e).trans (he2 e))
          ⟨l3 ++ l2, by rw [b5, hl2, List.append_assoc], by
            intro x c' hx
            rcases List.mem_append.1 hx with hx | hx
            · obtain ⟨q, op, k1, k2, k3, k4⟩ := b6 x c' hx
              exact ⟨q, op, k1, ⟨c, hccs, k2⟩, k3, k4⟩
            · exact hl2' x c' hx⟩
        refine ⟨s4, l4, ?_, c2⟩
        rw [List.map_cons, List.cons_append, b1, c1]
    obtain ⟨s2, l2, b1, b2, b3, b4, b5, b6⟩ := hlist cs.reverse [] rfl (fun x => B x ∨ x = v) s1 (n1 ++ u)
      ((v, .up u.length) :: rest) (by simp) hG1 a3.nodup (fun _ => rfl) ⟨[], rfl, by simp⟩
    refine ⟨{ s2 with available := undoAll n1 s2.available }, l2 ++ l1, ?_, ?_, undoAll_nodup _ b3, ?_, ?_, ?_⟩
    · rw [walk, hblk, hcs]
      simp only []
      rw [show numberOps v 0 blk.ops s u = some (s1, n1 ++ u) from a1]
      simp only []
      rw [b1, walk]
      rw [undoTo_append]
    · refine b2.congr ?_
      intro q op hop
      constructor
      · rintro ((h | h) | ⟨h, c, hc, h'⟩)
        · exact Or.inl h
        · exact Or.inr ⟨by rw [h]; exact hv, by rw [h]; exact anc_refl _ _⟩
        · have := hchild c hc
          exact Or.inr ⟨h, Relation.ReflTransGen.trans h' (anc_head this.2.2.2.1 this.2.2.1 (anc_refl _ _))⟩
      · rintro (h | ⟨h, h'⟩)
        · exact Or.inl (Or.inl h)
        · rcases Relation.ReflTransGen.cases_tail h' with h' | ⟨c, h1, h2⟩
          · exact Or.inl (Or.inr h'.symm)
          · exact Or.inr ⟨h, c, (hmem c).2 h2, h1⟩
    · intro e
      rw [undoAll_congr n1 b4 e, a4]
    · show s2.merged = _
      rw [b5, a5, List.append_assoc]
    · intro x c hx
      rcases List.mem_append.1 hx with hx | hx
      · obtain ⟨q, op, k1, ⟨c2, k2, k3⟩, k4⟩ := b6 x c hx
        have := hchild c2 k2
        exact ⟨q, op, k1, Relation.ReflTransGen.trans k3 (anc_head this.2.2.2.1 this.2.2.1 (anc_refl _ _)), k4⟩
      · obtain ⟨q, op, k1, k2⟩ := a6 x c hx
        exact ⟨q, op, by rw [k1]; exact hv, by rw [k1]; exact anc_refl _ _, k2⟩

/-- The numbering of a whole body. -/
theorem numbering_spec (hr : InRange f) (hne : f ≠ []) (hs : SingleAssignment f) (hd : DefsFirst f) (hN : Named f) :
    ∃ s, numbering f = some s ∧ Glob f (fun q => Reachable f q.block) s.merged s.removed := by
  have hlen : 0 < (graphOf f).length := by unfold graphOf; rw [List.length_map]; exact List.length_pos_iff.2 hne
  obtain ⟨dom, I, idx, time, h1, hT, hk, h2, h3, h4, h5, h6, hS⟩ := compute_spec (wf_graphOf hr) hlen
  have hl : (graphOf f).length = f.length := by unfold graphOf; rw [List.length_map]
  have hTree : Tree f idx I dom.children := ⟨hT, h5, by rw [h2, hl], fun d l h => (h6 d l h).1, fun d l h => (h6 d l h).2⟩
  have hbound : ∃ top, ∀ x, Reachable f x → idx x < top := by
    have : ∀ n, ∃ top, ∀ x, x < n → idx x < top := by
      intro n
      induction n with
      | zero => exact ⟨0, by simp⟩
      | succ n ih =>
        obtain ⟨top, h⟩ := ih
        refine ⟨max top (idx n + 1), fun x hx => ?_⟩
        rcases Nat.lt_succ_iff_lt_or_eq.1 hx with hx | rfl
        · exact lt_of_lt_of_le (h x hx) (le_max_left _ _)
        · exact lt_of_lt_of_le (Nat.lt_succ_self _) (le_max_right _ _)
    obtain ⟨top, h⟩ := this f.length
    exact ⟨top, fun x hx => h x (reachable_lt hr hne hx)⟩
  obtain ⟨top, htop⟩ := hbound
  have hg0 : Glob f (fun q => (fun _ : Nat => False) q.block) [] [] := by
    refine ⟨by simp, by simp, by simp, ?_⟩
    intro _ q op h
    exact h.elim
  have hl0 : Loc f [] ⟨0, 0⟩ [] := by
    refine ⟨by simp [keys], by simp [look], ?_⟩
    intro q op _ h
    exact absurd h not_before_start
  obtain ⟨s, l, a1, a2, _⟩ := walk_node hr hne hs hd hN hTree htop _ 0 rfl .refl (fun _ => False) ⟨[], [], []⟩ [] []
    ⟨fun _ _ h => h.elim, fun y hy h => absurd (dom_entry h) hy, id, .refl⟩ (fun _ _ _ h => h) hg0 hl0
  refine ⟨s, ?_, ?_⟩
  · unfold numbering
    rw [show (f.map fun b => b.term.successors) = graphOf f from rfl, h1]
    rw [Option.bind_some, a1, walk]
  · refine a2.congr ?_
    intro q op hop
    constructor
    · rintro (h | h)
      · exact h.elim
      · exact h.1
    · intro h
      exact Or.inr ⟨h, hT.anc_root _ _ rfl (hk _ (reach_graphOf.2 h))⟩

end Ferlium.Cse
