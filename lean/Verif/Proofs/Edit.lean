import Verif.Model.Edit
import Verif.Proofs.Mir
import Verif.Proofs.GraphScc

/-! Lemmas on the structural operations on bodies. -/
namespace Ferlium.Edit

open Ferlium.Mir Ferlium.Graph

variable {V σ : Type} {W : World V σ} {f g : Body}

/-! ### Relabelling blocks -/

/-- `g` consists of blocks of `f` under new numbers. -/
structure Relabel (f g : Body) (m : Nat → Option Nat) : Prop where
  entry : m 0 = some 0
  block : ∀ b b', m b = some b' → ∃ blk blk', f[b]? = some blk ∧ retargetBlock m blk = some blk' ∧ g[b']? = some blk'

/-- The relation between the executions. -/
inductive RelabelRel (m : Nat → Option Nat) : Config V σ → Config V σ → Prop
  | done x : RelabelRel m (.done x) (.done x)
  | at {ops t t' s} : retarget m t = some t' → RelabelRel m (.at ops t s) (.at ops t' s)

theorem relabel_enter {m : Nat → Option Nat} (h : Relabel f g m) {b b' : Nat} (hb : m b = some b') (s : St V σ) :
    RelabelRel m (enter f b s) (enter g b' s) := by
  obtain ⟨blk, blk', h1, h2, h3⟩ := h.block b b' hb
  unfold enter
  simp only [h1, h3]
  unfold retargetBlock at h2
  rw [Option.map_eq_some_iff] at h2
  obtain ⟨t, h4, rfl⟩ := h2
  exact .at h4

theorem relabel_step {m : Nat → Option Nat} (h : Relabel f g m) {c c' : Config V σ} (hr : RelabelRel m c c') :
    RelabelRel m (step W f c) (step W g c') := by
  cases hr with
  | done x => exact .done x
  | @«at» ops t t' s ht =>
    cases ops with
    | cons op ops =>
      simp only [step]
      split
      · exact .at ht
      · exact .done _
      · exact .done _
      · exact .done _
    | nil =>
      simp only [step]
      cases t with
      | goto b =>
        simp only [retarget, Option.map_eq_some_iff] at ht
        obtain ⟨b', hb, rfl⟩ := ht
        exact relabel_enter h hb s
      | condBr c t e =>
        simp only [retarget] at ht
        split at ht
        · rename_i t1 e1 h1 h2
          cases ht
          simp only [stepTerm]
          split
          · exact relabel_enter h h1 s
          · exact relabel_enter h h2 s
          · exact .done _
        · cases ht
      | invoke op n e =>
        simp only [retarget] at ht
        split at ht
        · rename_i t1 e1 h1 h2
          cases ht
          simp only [stepTerm]
          split
          · exact relabel_enter h h1 _
          · exact relabel_enter h h2 _
          · exact .done _
          · exact .done _
        · cases ht
      | yield v b =>
        simp only [retarget, Option.map_eq_some_iff] at ht
        obtain ⟨b', hb, rfl⟩ := ht
        simp only [stepTerm]
        split
        · split
          · exact relabel_enter h hb _
          · exact .done _
        · exact .done _
      | ret => cases ht; exact .done _
      | propagateError => cases ht; exact .done _
      | cleanupFailure => cases ht; exact .done _

theorem relabel_same {m : Nat → Option Nat} (h : Relabel f g m) (w : σ) : SameBehaviour W f g w := by
  refine sim_both (RelabelRel m) ?_ ?_ ?_ ?_ ?_ (relabel_enter h h.entry _)
  · intro c c' h
    cases h <;> rfl
  · intro x c' h; cases h; rfl
  · intro x c' h; cases h; rfl
  · intro c c' hr; exact ⟨1, relabel_step h hr⟩
  · intro c c' hr; exact ⟨1, relabel_step h hr⟩

theorem retarget_some {m : Nat → Option Nat} {t : Term} (h : ∀ s ∈ t.successors, ∃ s', m s = some s') :
    ∃ t', retarget m t = some t' := by
  cases t with
  | goto b => obtain ⟨b', hb⟩ := h b (by simp [Term.successors]); exact ⟨.goto b', by simp [retarget, hb]⟩
  | condBr c t e =>
    obtain ⟨b', hb⟩ := h t (by simp [Term.successors])
    obtain ⟨e', he⟩ := h e (by simp [Term.successors])
    exact ⟨.condBr c b' e', by simp [retarget, hb, he]⟩
  | invoke op t e =>
    obtain ⟨b', hb⟩ := h t (by simp [Term.successors])
    obtain ⟨e', he⟩ := h e (by simp [Term.successors])
    exact ⟨.invoke op b' e', by simp [retarget, hb, he]⟩
  | yield v b => obtain ⟨b', hb⟩ := h b (by simp [Term.successors]); exact ⟨.yield v b', by simp [retarget, hb]⟩
  | ret => exact ⟨_, rfl⟩
  | propagateError => exact ⟨_, rfl⟩
  | cleanupFailure => exact ⟨_, rfl⟩

theorem retarget_successors {m : Nat → Option Nat} {t t' : Term} (h : retarget m t = some t') :
    List.Forall₂ (fun s s' => m s = some s') t.successors t'.successors := by
  cases t with
  | goto b =>
    simp only [retarget, Option.map_eq_some_iff] at h
    obtain ⟨b', hb, rfl⟩ := h
    exact .cons hb .nil
  | condBr c t e =>
    simp only [retarget] at h
    split at h
    · rename_i h1 h2; cases h; exact .cons h1 (.cons h2 .nil)
    · cases h
  | invoke c t e =>
    simp only [retarget] at h
    split at h
    · rename_i h1 h2; cases h; exact .cons h1 (.cons h2 .nil)
    · cases h
  | yield v b =>
    simp only [retarget, Option.map_eq_some_iff] at h
    obtain ⟨b', hb, rfl⟩ := h
    exact .cons hb .nil
  | ret => cases h; exact .nil
  | propagateError => cases h; exact .nil
  | cleanupFailure => cases h; exact .nil

/-! ### Reachability -/

/-- There is an edge between the blocks. -/
def BlockEdge (f : Body) (a b : Nat) : Prop := ∃ blk, f[a]? = some blk ∧ b ∈ blk.term.successors

/-- The block can be reached from the entry. -/
def Reachable (f : Body) (b : Nat) : Prop := Relation.ReflTransGen (BlockEdge f) 0 b

theorem reachable_lt (hr : InRange f) (hne : f ≠ []) {b : Nat} (h : Reachable f b) : b < f.length := by
  cases h with
  | refl => exact List.length_pos_iff.2 hne
  | tail _ h =>
    obtain ⟨blk, h1, h2⟩ := h
    exact hr blk (List.mem_of_getElem? h1) b h2

theorem reachLoop_spec (hr : InRange f) (hne : f ≠ []) : ∀ (n k : Nat) (worklist : List Nat) (seen : Finset Nat),
    f.length - seen.card = n → worklist.length = k →
    (∀ b ∈ seen, Reachable f b) → (∀ b ∈ worklist, Reachable f b) →
    (∀ b ∈ seen, ∀ b', BlockEdge f b b' → b' ∈ seen ∨ b' ∈ worklist) →
    ∃ r, reachLoop f worklist seen = some r ∧ seen ⊆ r ∧ (∀ b ∈ worklist, b ∈ r) ∧ (∀ b ∈ r, Reachable f b) ∧
      ∀ b ∈ r, ∀ b', BlockEdge f b b' → b' ∈ r := by
  intro n
  induction n using Nat.strong_induction_on with
  | _ n ihn =>
  intro k
  induction k using Nat.strong_induction_on with
  | _ k ihk =>
  intro worklist seen hn hk h1 h2 h3
  cases worklist with
  | nil =>
    exact ⟨seen, by unfold reachLoop; rfl, Finset.Subset.refl _, by simp, h1, fun b hb b' he => by simpa using h3 b hb b' he⟩
  | cons b worklist =>
    unfold reachLoop
    split
    · rename_i hb
      obtain ⟨r, e1, e2, e3, e4, e5⟩ := ihk _ (by rw [← hk]; simp) worklist seen hn rfl h1
        (fun q hq => h2 q (by simp [hq])) (fun q hq q' he => by
          rcases h3 q hq q' he with h | h
          · exact Or.inl h
          · rcases List.mem_cons.1 h with rfl | h
            · exact Or.inl hb
            · exact Or.inr h)
      refine ⟨r, e1, e2, ?_, e4, e5⟩
      intro q hq
      rcases List.mem_cons.1 hq with rfl | hq
      · exact e2 hb
      · exact e3 q hq
    · rename_i hb
      have hbr : Reachable f b := h2 b (by simp)
      have hblt := reachable_lt hr hne hbr
      have hblk : f[b]? = some f[b] := List.getElem?_eq_getElem hblt
      simp only [hblk]
      have hcard : (insert b seen).card ≤ f.length := by
        have : insert b seen ⊆ Finset.range f.length := by
          intro q hq
          rw [Finset.mem_range]
          rcases Finset.mem_insert.1 hq with rfl | hq
          · exact hblt
          · exact reachable_lt hr hne (h1 q hq)
        simpa using Finset.card_le_card this
      have hins : (insert b seen).card = seen.card + 1 := Finset.card_insert_of_notMem hb
      obtain ⟨r, e1, e2, e3, e4, e5⟩ := ihn (f.length - (insert b seen).card) (by omega) _
        (f[b].term.successors.reverse ++ worklist) (insert b seen) rfl rfl (by
          intro q hq
          rcases Finset.mem_insert.1 hq with rfl | hq
          · exact hbr
          · exact h1 q hq) (by
          intro q hq
          rcases List.mem_append.1 hq with hq | hq
          · exact hbr.tail ⟨f[b], hblk, List.mem_reverse.1 hq⟩
          · exact h2 q (by simp [hq])) (by
          intro q hq q' he
          rcases Finset.mem_insert.1 hq with rfl | hq
          · obtain ⟨blk, g1, g2⟩ := he
            rw [hblk] at g1; cases g1
            exact Or.inr (List.mem_append_left _ (List.mem_reverse.2 g2))
          · rcases h3 q hq q' he with h | h
            · exact Or.inl (Finset.mem_insert_of_mem h)
            · rcases List.mem_cons.1 h with rfl | h
              · exact Or.inl (Finset.mem_insert_self _ _)
              · exact Or.inr (List.mem_append_right _ h))
      refine ⟨r, e1, (Finset.subset_insert _ _).trans e2, ?_, e4, e5⟩
      intro q hq
      rcases List.mem_cons.1 hq with rfl | hq
      · exact e2 (Finset.mem_insert_self _ _)
      · exact e3 q (List.mem_append_right _ hq)

theorem reach_spec (hr : InRange f) (hne : f ≠ []) :
    ∃ r, reachLoop f [0] ∅ = some r ∧ ∀ b, b ∈ r ↔ Reachable f b := by
  obtain ⟨r, e1, _, e3, e4, e5⟩ := reachLoop_spec hr hne _ _ [0] ∅ rfl rfl (by simp)
    (by simp [Reachable, Relation.ReflTransGen.refl]) (by simp)
  refine ⟨r, e1, fun b => ⟨e4 b, fun h => ?_⟩⟩
  induction h with
  | refl => exact e3 0 (by simp)
  | tail _ h ih => exact e5 _ ih _ h

/-! ### Removing unreachable blocks -/

theorem retained_order (r : Finset Nat) (f : Body) (k : Nat) :
    List.Forall₂ (fun b blk => k ≤ b ∧ f[b - k]? = some blk) ((List.range' k f.length).filter (· ∈ r))
      (((f.zipIdx k).filter fun p => p.2 ∈ r).map Prod.fst) := by
  induction f generalizing k with
  | nil => exact .nil
  | cons a f ih =>
    have htail : List.Forall₂ (fun b blk => k ≤ b ∧ (a :: f)[b - k]? = some blk)
        ((List.range' (k + 1) f.length).filter (· ∈ r)) (((f.zipIdx (k + 1)).filter fun p => p.2 ∈ r).map Prod.fst) := by
      refine (ih (k + 1)).imp ?_
      rintro b blk ⟨h1, h2⟩
      refine ⟨by omega, ?_⟩
      rw [show b - k = b - (k + 1) + 1 by omega, List.getElem?_cons_succ]
      exact h2
    rw [List.length_cons, List.range'_succ, List.zipIdx_cons]
    by_cases hk : k ∈ r
    · simp only [List.filter_cons, hk, decide_true, if_true, List.map_cons]
      exact .cons ⟨le_refl _, by simp⟩ htail
    · simp only [List.filter_cons, hk, decide_false, Bool.false_eq_true, if_false]
      exact htail

theorem filter_range_rank {r : Finset Nat} {n b : Nat} (hb : b < n) (hr : b ∈ r) :
    ((List.range n).filter (· ∈ r))[((List.range b).filter (· ∈ r)).length]? = some b := by
  have h : List.range n = List.range b ++ b :: List.range' (b + 1) (n - b - 1) := by
    rw [List.range_eq_range', List.range_eq_range', ← List.range'_succ]
    rw [show n - b - 1 + 1 = n - b by omega]
    have := List.range'_append (s := 0) (m := b) (n := n - b) (step := 1)
    simp only [Nat.zero_add, Nat.one_mul] at this
    rw [this]
    congr 1
    omega
  rw [h, List.filter_append, List.getElem?_append_right (le_refl _)]
  simp [hr]

theorem mapM_get {α β : Type} {h : α → Option β} : ∀ {l : List α} {l' : List β}, l.mapM h = some l' → ∀ (i : Nat) a,
    l[i]? = some a → ∃ b, h a = some b ∧ l'[i]? = some b := by
  intro l
  induction l with
  | nil => intro l' _ i a hi; simp at hi
  | cons x l ih =>
    intro l' hl i a hi
    rw [List.mapM_cons] at hl
    cases hx : h x with
    | none => simp [hx] at hl
    | some y =>
      cases hm : l.mapM h with
      | none => simp [hx, hm] at hl
      | some ys =>
        simp [hx, hm] at hl
        subst hl
        cases i with
        | zero => simp at hi; subst hi; exact ⟨y, hx, by simp⟩
        | succ i => simpa using ih hm i a (by simpa using hi)

theorem mapM_total {α β : Type} {h : α → Option β} : ∀ {l : List α}, (∀ a ∈ l, ∃ b, h a = some b) →
    ∃ l', l.mapM h = some l' := by
  intro l
  induction l with
  | nil => intro _; exact ⟨[], rfl⟩
  | cons x l ih =>
    intro hl
    obtain ⟨y, hy⟩ := hl x (by simp)
    obtain ⟨ys, hys⟩ := ih fun a ha => hl a (by simp [ha])
    exact ⟨y :: ys, by rw [List.mapM_cons, hy, hys]; rfl⟩

theorem mapM_length {α β : Type} {h : α → Option β} : ∀ {l : List α} {l' : List β}, l.mapM h = some l' →
    l'.length = l.length := by
  intro l
  induction l with
  | nil => intro l' hl; cases hl; rfl
  | cons x l ih =>
    intro l' hl
    rw [List.mapM_cons] at hl
    cases hx : h x with
    | none => simp [hx] at hl
    | some y =>
      cases hm : l.mapM h with
      | none => simp [hx, hm] at hl
      | some ys => simp [hx, hm] at hl; subst hl; simp [ih hm]

/-- `g` is made of the blocks of `f` in the given order, renumbered. -/
structure Ordered (f g : Body) (m : Nat → Option Nat) (order : List Nat) : Prop where
  nodup : order.Nodup
  entry : order[0]? = some 0
  number : ∀ b i, m b = some i ↔ order[i]? = some b
  blocks : List.Forall₂ (fun b blk' => ∃ blk, f[b]? = some blk ∧ retargetBlock m blk = some blk') order g

theorem forall₂_get {α β : Type} {R : α → β → Prop} {l : List α} {l' : List β} (h : List.Forall₂ R l l') {i : Nat}
    {a : α} (ha : l[i]? = some a) : ∃ b, l'[i]? = some b ∧ R a b := by
  induction h generalizing i with
  | nil => simp at ha
  | cons h1 _ ih =>
    cases i with
    | zero => simp at ha; subst ha; exact ⟨_, by simp, h1⟩
    | succ i => simpa using ih (by simpa using ha)

theorem forall₂_get' {α β : Type} {R : α → β → Prop} {l : List α} {l' : List β} (h : List.Forall₂ R l l') {i : Nat}
    {b : β} (hb : l'[i]? = some b) : ∃ a, l[i]? = some a ∧ R a b := by
  induction h generalizing i with
  | nil => simp at hb
  | cons h1 _ ih =>
    cases i with
    | zero => simp at hb; subst hb; exact ⟨_, by simp, h1⟩
    | succ i => simpa using ih (by simpa using hb)

theorem Ordered.relabel {m : Nat → Option Nat} {order : List Nat} (h : Ordered f g m order) : Relabel f g m := by
  refine ⟨(h.number 0 0).2 h.entry, fun b b' hb => ?_⟩
  obtain ⟨blk', h1, blk, h2, h3⟩ := forall₂_get h.blocks ((h.number b b').1 hb)
  exact ⟨blk, blk', h2, h3, h1⟩

theorem retargetBlock_ops {m : Nat → Option Nat} {b b' : Block} (h : retargetBlock m b = some b') : b'.ops = b.ops := by
  unfold retargetBlock at h
  rw [Option.map_eq_some_iff] at h
  obtain ⟨t, _, rfl⟩ := h
  rfl

theorem retargetBlock_term {m : Nat → Option Nat} {b b' : Block} (h : retargetBlock m b = some b') :
    retarget m b.term = some b'.term := by
  unfold retargetBlock at h
  rw [Option.map_eq_some_iff] at h
  obtain ⟨t, h, rfl⟩ := h
  exact h

theorem Ordered.inRange {m : Nat → Option Nat} {order : List Nat} (h : Ordered f g m order) : InRange g := by
  intro b' hb' t' ht'
  obtain ⟨i, hi⟩ := List.getElem?_of_mem hb'
  obtain ⟨b, h1, blk, h2, h3⟩ := forall₂_get' h.blocks hi
  have h4 := retarget_successors (retargetBlock_term h3)
  obtain ⟨j, hj⟩ := List.getElem?_of_mem ht'
  obtain ⟨s, h5, h6⟩ := forall₂_get' h4 hj
  obtain ⟨blk', h7, _⟩ := forall₂_get h.blocks ((h.number s t').1 h6)
  exact (List.getElem?_eq_some_iff.1 h7).1

theorem Ordered.mem {m : Nat → Option Nat} {order : List Nat} (h : Ordered f g m order) {b' : Block} (hb : b' ∈ g) :
    ∃ b ∈ f, retargetBlock m b = some b' := by
  obtain ⟨i, hi⟩ := List.getElem?_of_mem hb
  obtain ⟨b, h1, blk, h2, h3⟩ := forall₂_get' h.blocks hi
  exact ⟨blk, List.mem_of_getElem? h2, h3⟩

theorem flatMap_filterMap_nodup {β : Type} {u : Block → List β} (hu : (f.flatMap u).Nodup) :
    ∀ {order : List Nat} {g : Body}, order.Nodup →
      List.Forall₂ (fun b blk' => ∃ blk, f[b]? = some blk ∧ u blk' = u blk) order g → (g.flatMap u).Nodup := by
  -- elements of different blocks are different
  have hdis : ∀ (i j : Nat) bi bj, f[i]? = some bi → f[j]? = some bj → i ≠ j → ∀ x, x ∈ u bi → x ∈ u bj → False := by
    intro i j bi bj hi hj hij x hxi hxj
    rw [List.nodup_flatMap] at hu
    have hp := List.pairwise_iff_getElem.1 hu.2
    obtain ⟨hi1, rfl⟩ := List.getElem?_eq_some_iff.1 hi
    obtain ⟨hj1, rfl⟩ := List.getElem?_eq_some_iff.1 hj
    rcases Nat.lt_or_gt_of_ne hij with h | h
    · exact hp i j hi1 hj1 h hxi hxj
    · exact hp j i hj1 hi1 h hxj hxi
  intro order g hnd hf
  induction hf with
  | nil => simp
  | @cons b blk' order g h1 h2 ih =>
    obtain ⟨hb, hnd⟩ := List.nodup_cons.1 hnd
    rw [List.flatMap_cons]
    obtain ⟨blk, h3, h4⟩ := h1
    refine List.Nodup.append ?_ (ih hnd) ?_
    · rw [h4]
      exact (List.nodup_flatMap.1 hu).1 blk (List.mem_of_getElem? h3)
    · intro x hx hx'
      rw [h4] at hx
      obtain ⟨c', hc', hxc⟩ := List.mem_flatMap.1 hx'
      obtain ⟨i, hi⟩ := List.getElem?_of_mem hc'
      obtain ⟨c, hc, blkc, h5, h6⟩ := forall₂_get' h2 hi
      rw [h6] at hxc
      exact hdis b c blk blkc h3 h5 (fun h => hb (h ▸ List.mem_of_getElem? hc)) x hx hxc

theorem retarget_invoke {m : Nat → Option Nat} {t : Term} {op : Op} {n e : Nat}
    (h : retarget m t = some (.invoke op n e)) : ∃ n' e', t = .invoke op n' e' := by
  cases t with
  | invoke op' n' e' =>
    simp only [retarget] at h
    split at h
    · cases h; exact ⟨n', e', rfl⟩
    · cases h
  | goto b => simp [retarget] at h
  | condBr c b e => simp only [retarget] at h; split at h <;> cases h
  | yield v b => simp [retarget] at h
  | ret => cases h
  | propagateError => cases h
  | cleanupFailure => cases h

theorem Ordered.valid {m : Nat → Option Nat} {order : List Nat} (h : Ordered f g m order) (hf : Valid f) : Valid g := by
  refine ⟨h.inRange, ⟨?_, ?_⟩, ?_⟩
  · unfold results
    refine flatMap_filterMap_nodup (u := Block.results) hf.single.1 h.nodup (h.blocks.imp ?_)
    rintro b blk' ⟨blk, h1, h2⟩
    exact ⟨blk, h1, by unfold Block.results; rw [retargetBlock_ops h2]⟩
  · intro b' hb' op n e ht
    obtain ⟨b, hb, h1⟩ := h.mem hb'
    have h2 := retargetBlock_term h1
    rw [ht] at h2
    obtain ⟨n', e', h3⟩ := retarget_invoke h2
    exact hf.single.2 b hb op n' e' h3
  · intro b' hb' op hop hk
    obtain ⟨b, hb, h1⟩ := h.mem hb'
    rw [retargetBlock_ops h1] at hop
    obtain ⟨v, p, h2, h3⟩ := hf.stores b hb op hop hk
    have hal : ∀ q, IsAlloca g q → IsAlloca f q := by
      rintro q ⟨c', hc', op', ho', hr', ty, hty⟩
      obtain ⟨c, hc, h4⟩ := h.mem hc'
      rw [retargetBlock_ops h4] at ho'
      exact ⟨c, hc, op', ho', hr', ty, hty⟩
    exact ⟨v, p, h2, fun q r hp hq hv hr => h3 q r hp (hal q hq) hv (hal r hr)⟩

/-- Removing the unreachable blocks. -/
theorem removeUnreachable_spec (hr : InRange f) (hne : f ≠ []) : ∃ g m order, removeUnreachable f = some g ∧
    Ordered f g m order ∧ (∀ b, b ∈ order ↔ Reachable f b) ∧ order.Pairwise (· < ·) := by
  obtain ⟨r, h1, h2⟩ := reach_spec hr hne
  have hsub : ∀ b ∈ r, b < f.length := fun b hb => reachable_lt hr hne ((h2 b).1 hb)
  have h0 : 0 ∈ r := (h2 0).2 .refl
  unfold removeUnreachable
  simp only [h1, Option.bind_eq_bind, Option.bind_some]
  split
  · rename_i hcard
    have hall : r = Finset.range f.length := by
      apply Finset.eq_of_subset_of_card_le
      · intro b hb; simpa using hsub b hb
      · simp [hcard]
    have hid : ∀ (b : Nat) (blk : Block), f[b]? = some blk → retargetBlock (fun b => if b < f.length then some b else none) blk = some blk := by
      intro b blk hb
      have hs := hr blk (List.mem_of_getElem? hb)
      unfold retargetBlock
      obtain ⟨ops, t⟩ := blk
      cases t <;> simp [retarget, Term.successors] at hs ⊢ <;> simp [hs]
    refine ⟨f, fun b => if b < f.length then some b else none, List.range f.length, rfl, ⟨List.nodup_range, ?_, ?_, ?_⟩, ?_,
      List.pairwise_lt_range⟩
    · have := hsub 0 h0
      simp [this]
    · intro b i
      simp only [Option.ite_none_right_eq_some, Option.some.injEq, List.getElem?_eq_some_iff, List.getElem_range,
        List.length_range]
      constructor
      · rintro ⟨h, rfl⟩; exact ⟨h, rfl⟩
      · rintro ⟨h, rfl⟩; exact ⟨h, rfl⟩
    · rw [List.forall₂_iff_get]
      refine ⟨by simp, fun i hi hi' => ?_⟩
      refine ⟨f[i], by simp [hi'], ?_⟩
      simpa using hid i f[i] (by simp [hi'])
    · intro b
      rw [← h2 b, hall]
      simp
  · have hord := retained_order r f 0
    rw [← List.range_eq_range'] at hord
    have hsuccs : ∀ b ∈ r, ∀ blk, f[b]? = some blk → ∀ s ∈ blk.term.successors, s ∈ r := fun b hb blk hblk s hs =>
      (h2 s).2 (((h2 b).1 hb).tail ⟨blk, hblk, hs⟩)
    have htot : ∀ blk ∈ retained r f, ∃ blk', retargetBlock (renumber r) blk = some blk' := by
      intro blk hblk
      obtain ⟨i, hi⟩ := List.getElem?_of_mem hblk
      obtain ⟨b, g1, _, g2⟩ := forall₂_get' hord hi
      have hb : b ∈ r := by simpa using (List.mem_filter.1 (List.mem_of_getElem? g1)).2
      obtain ⟨t', ht'⟩ := retarget_some (m := renumber r) (t := blk.term) (fun s hs =>
        ⟨_, by unfold renumber; rw [if_pos (hsuccs b hb blk (by simpa using g2) s hs)]⟩)
      exact ⟨{ blk with term := t' }, by simp [retargetBlock, ht']⟩
    obtain ⟨g, hg⟩ := mapM_total htot
    have hnd : ((List.range f.length).filter (· ∈ r)).Nodup := List.nodup_range.filter _
    refine ⟨g, renumber r, (List.range f.length).filter (· ∈ r), hg, ⟨hnd, ?_, ?_, ?_⟩, ?_,
      List.pairwise_lt_range.filter _⟩
    · have := filter_range_rank (hsub 0 h0) h0
      simpa using this
    · intro b i
      unfold renumber
      constructor
      · intro h
        split at h
        · rename_i hb
          cases h
          exact filter_range_rank (hsub b hb) hb
        · cases h
      · intro h
        have hb : b ∈ r := by simpa using (List.mem_filter.1 (List.mem_of_getElem? h)).2
        rw [if_pos hb]
        have h3 := filter_range_rank (hsub b hb) hb
        obtain ⟨i1, i2⟩ := List.getElem?_eq_some_iff.1 h
        obtain ⟨j1, j2⟩ := List.getElem?_eq_some_iff.1 h3
        have := (List.Nodup.getElem_inj_iff hnd).1 (j2.trans i2.symm)
        rw [this]
    · rw [List.forall₂_iff_get]
      have hlen := hord.length_eq
      have hlen' := mapM_length hg
      refine ⟨by rw [hlen']; exact hlen, fun i hi hi' => ?_⟩
      obtain ⟨blk, g1, _, g2⟩ := forall₂_get hord (List.getElem?_eq_getElem hi)
      obtain ⟨blk', g3, g4⟩ := mapM_get hg i blk g1
      refine ⟨blk, by simpa using g2, ?_⟩
      rw [g3]
      obtain ⟨_, g5⟩ := List.getElem?_eq_some_iff.1 g4
      simp [← g5]
    · intro b
      simp only [List.mem_filter, List.mem_range, decide_eq_true_eq]
      rw [← h2 b]
      exact ⟨fun h => h.2, fun h => ⟨hsub b h, h⟩⟩

end Ferlium.Edit
