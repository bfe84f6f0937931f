import Verif.Model.DeadStore
import Verif.Proofs.Mir
import Verif.Proofs.DominanceTree

/-! Lemmas on the dead-store pass. -/
namespace Ferlium.DeadStore

open Ferlium.Mir Ferlium.Graph

/-! ### Candidates -/

theorem foldl_shrink {α : Type} {P : α → Nat → Prop} {stepc : Finset Nat → α → Finset Nat}
    (h : ∀ c a r, r ∈ stepc c a ↔ r ∈ c ∧ P a r) : ∀ (l : List α) (c : Finset Nat) (r : Nat), r ∈ l.foldl stepc c ↔
      r ∈ c ∧ ∀ a ∈ l, P a r := by
  intro l
  induction l with
  | nil => intro c r; simp
  | cons a l ih =>
    intro c r
    rw [List.foldl_cons, ih, h]
    simp only [List.mem_cons, forall_eq_or_imp]
    tauto

/-- The uses of a candidate in an operation. -/
def GoodUse (op : Op) (r : Nat) : Prop :=
  ∀ i, op.operands[i]? = some (.register r) → wholePlaceWrite op = some i ∨ exactRead op i = true

theorem mem_rejectOp {c : Finset Nat} {op : Op} {r : Nat} : r ∈ rejectOp c op ↔ r ∈ c ∧ GoodUse op r := by
  unfold rejectOp
  rw [foldl_shrink
    (P := fun (p : Value × Nat) r => p.1 = .register r → wholePlaceWrite op = some p.2 ∨ exactRead op p.2 = true)
    (stepc := rejectOperand op) (by
      rintro c ⟨v, i⟩ r
      unfold rejectOperand
      simp only
      split
      · rename_i root
        split
        · split
          · rename_i h1; exact ⟨fun hr => ⟨hr, fun _ => h1⟩, fun hr => hr.1⟩
          · rename_i h1
            rw [Finset.mem_erase]
            constructor
            · intro hr; exact ⟨hr.2, fun h => absurd (by cases h; rfl) hr.1⟩
            · intro hr; exact ⟨fun h => h1 (hr.2 (by rw [h])), hr.1⟩
        · rename_i h1
          exact ⟨fun hr => ⟨hr, fun h => absurd (by cases h; exact hr) h1⟩, fun hr => hr.1⟩
      · rename_i h1
        exact ⟨fun hr => ⟨hr, fun h => absurd h (h1 r)⟩, fun hr => hr.1⟩)]
  apply and_congr_right
  intro _
  constructor
  · intro h2 i hi
    exact h2 (.register r, i) (List.mem_zipIdx_iff_getElem?.2 hi) rfl
  · rintro h ⟨v, i⟩ hv rfl
    exact h i (List.mem_zipIdx_iff_getElem?.1 hv)

theorem mem_candidates_iff {trivial : Nat → Bool} {f : Body} {r : Nat} : r ∈ candidates trivial f ↔
    r ∈ allocas trivial f ∧ ∀ b ∈ f, (∀ op ∈ b.ops, GoodUse op r) ∧ Value.register r ∉ b.term.operands := by
  refine foldl_shrink (P := fun (b : Block) r => (∀ op ∈ b.ops, GoodUse op r) ∧ Value.register r ∉ b.term.operands)
    ?_ _ _ _
  intro c b r
  unfold rejectBlock
  rw [foldl_shrink (P := fun (v : Value) r => v ≠ .register r) (stepc := rejectTermOperand) (by
    intro c v r
    cases v with
    | register q =>
      simp only [rejectTermOperand, Finset.mem_erase, ne_eq, Value.register.injEq]
      constructor
      · rintro ⟨h1, h2⟩; exact ⟨h2, fun h => h1 h.symm⟩
      · rintro ⟨h1, h2⟩; exact ⟨fun h => h2 h.symm, h1⟩
    | _ => simp [rejectTermOperand]),
    foldl_shrink (P := GoodUse) (stepc := rejectOp) (fun c op r => mem_rejectOp)]
  constructor
  · rintro ⟨⟨h1, h2⟩, h3⟩; exact ⟨h1, h2, fun h => h3 _ h rfl⟩
  · rintro ⟨h1, h2, h3⟩; exact ⟨⟨h1, h2⟩, fun v hv h => h3 (h ▸ hv)⟩

theorem mem_candidates {trivial : Nat → Bool} {f : Body} {r : Nat} (h : r ∈ candidates trivial f) :
    r ∈ allocas trivial f ∧ ∀ b ∈ f, (∀ op ∈ b.ops, GoodUse op r) ∧ Value.register r ∉ b.term.operands :=
  mem_candidates_iff.1 h

/-! ### Liveness of one operation -/

variable {c : Finset Nat}

theorem mem_transferOp {op : Op} {live : Finset Nat} {r : Nat} : r ∈ transferOp c op live ↔
    (r ∈ live ∧ writtenRoot c op ≠ some r) ∨
      (r ∈ c ∧ ∃ i, op.operands[i]? = some (.register r) ∧ exactRead op i = true) := by
  have key : ∀ (l : List (Value × Nat)) (a : Finset Nat), r ∈ l.foldl (readOperand c op) a ↔
      r ∈ a ∨ (r ∈ c ∧ ∃ p ∈ l, p.1 = .register r ∧ exactRead op p.2 = true) := by
    intro l
    induction l with
    | nil => intro a; simp
    | cons p l ih =>
      intro a
      rw [List.foldl_cons, ih]
      have h1 : r ∈ readOperand c op a p ↔ r ∈ a ∨ (r ∈ c ∧ p.1 = .register r ∧ exactRead op p.2 = true) := by
        unfold readOperand
        obtain ⟨v, i⟩ := p
        simp only
        split
        · rename_i h
          cases v with
          | register q =>
            simp only [h]
            split
            · rename_i hq
              simp only [Finset.mem_insert, Value.register.injEq]
              constructor
              · rintro (rfl | h)
                · exact Or.inr ⟨hq, by simp⟩
                · exact Or.inl h
              · rintro (h | ⟨_, rfl, _⟩)
                · exact Or.inr h
                · exact Or.inl rfl
            · rename_i hq
              simp only [Value.register.injEq]
              constructor
              · exact Or.inl
              · rintro (h | ⟨hc, rfl, _⟩)
                · exact h
                · exact absurd hc hq
          | _ => simp
        · rename_i h; simp [h]
      rw [h1]
      simp only [List.mem_cons, exists_eq_or_imp]
      tauto
  unfold transferOp
  rw [key]
  apply or_congr
  · cases h : writtenRoot c op with
    | none => simp
    | some q =>
      simp only [Finset.mem_erase, ne_eq, Option.some.injEq]
      constructor
      · rintro ⟨a, b⟩; exact ⟨b, fun h => a h.symm⟩
      · rintro ⟨a, b⟩; exact ⟨fun h => b h.symm, a⟩
  · apply and_congr_right
    intro _
    constructor
    · rintro ⟨⟨v, i⟩, h1, rfl, h3⟩
      exact ⟨i, List.mem_zipIdx_iff_getElem?.1 h1, h3⟩
    · rintro ⟨i, h1, h2⟩
      exact ⟨(.register r, i), List.mem_zipIdx_iff_getElem?.2 h1, rfl, h2⟩

theorem transferOp_mono {op : Op} {a b : Finset Nat} (h : a ⊆ b) : transferOp c op a ⊆ transferOp c op b := by
  intro r hr
  rw [mem_transferOp] at hr ⊢
  exact hr.imp (fun ⟨h1, h2⟩ => ⟨h h1, h2⟩) id

theorem transfer_mono {ops : List Op} {a b : Finset Nat} (h : a ⊆ b) : transfer c ops a ⊆ transfer c ops b := by
  induction ops with
  | nil => exact h
  | cons op ops ih => exact transferOp_mono ih

theorem transfer_sub {ops : List Op} {a : Finset Nat} (h : a ⊆ c) : transfer c ops a ⊆ c := by
  induction ops with
  | nil => exact h
  | cons op ops ih =>
    intro r hr
    rcases mem_transferOp.1 hr with ⟨h1, _⟩ | ⟨h1, _⟩
    · exact ih h1
    · exact h1

/-! ### The worklist -/

/-- The live set of a block. -/
def lv (l : List (Finset Nat)) (b : Nat) : Finset Nat := (l[b]?).getD ∅

/-- The live set after a terminator. -/
def outOf (l : List (Finset Nat)) (t : Term) : Finset Nat := t.successors.toFinset.biUnion (lv l)

theorem mem_outOf {l : List (Finset Nat)} {t : Term} {r : Nat} :
    r ∈ outOf l t ↔ ∃ s ∈ t.successors, r ∈ lv l s := by
  simp [outOf]

theorem liveOut_eq {l : List (Finset Nat)} {t : Term} (h : ∀ s ∈ t.successors, s < l.length) :
    liveOut l t = some (outOf l t) := by
  obtain ⟨out, h1, h2⟩ := foldlM_inv (f := fun (live : Finset Nat) s => l[s]?.map (live ∪ ·))
    (fun pre (out : Finset Nat) => out = pre.toFinset.biUnion (lv l)) (l := t.successors) (init := ∅) (by simp) (by
      rintro pre s post out hl rfl
      have hs := h s (by rw [hl]; simp)
      refine ⟨_, by rw [List.getElem?_eq_getElem hs]; rfl, ?_⟩
      ext r
      simp only [Finset.mem_union, Finset.mem_biUnion, List.mem_toFinset, List.mem_append, List.mem_singleton, lv]
      constructor
      · rintro (⟨q, h1, h2⟩ | h1)
        · exact ⟨q, Or.inl h1, h2⟩
        · exact ⟨s, Or.inr rfl, by rw [List.getElem?_eq_getElem hs]; exact h1⟩
      · rintro ⟨q, h1 | rfl, h2⟩
        · exact Or.inl ⟨q, h1, h2⟩
        · right; rw [List.getElem?_eq_getElem hs] at h2; exact h2)
  unfold liveOut
  rw [h1, h2, outOf]

/-- What the content of a local may still be used for. -/
inductive MayRead (f : Body) (c : Finset Nat) : List Op → Term → Nat → Prop
  | read {op ops t r i} : op.operands[i]? = some (.register r) → exactRead op i = true → MayRead f c (op :: ops) t r
  | later {op ops t r} : writtenRoot c op ≠ some r → MayRead f c ops t r → MayRead f c (op :: ops) t r
  | jump {t r s b} : s ∈ t.successors → f[s]? = some b → MayRead f c b.ops b.term r → MayRead f c [] t r

/-- Invariant of the worklist. -/
structure Inv (f : Body) (c : Finset Nat) (pending : List Nat) (l : List (Finset Nat)) : Prop where
  len : l.length = f.length
  range : ∀ b ∈ pending, b < f.length
  sub : ∀ b, lv l b ⊆ c
  grows : ∀ (b : Nat) blk, f[b]? = some blk → lv l b ⊆ transfer c blk.ops (outOf l blk.term)
  fixed : ∀ (b : Nat) blk, f[b]? = some blk → b ∈ pending ∨ lv l b = transfer c blk.ops (outOf l blk.term)
  reason : ∀ (b : Nat) blk, f[b]? = some blk → ∀ r ∈ lv l b, MayRead f c blk.ops blk.term r

theorem mayRead_of_mem {f : Body} {t : Term} {out : Finset Nat} (hsub : out ⊆ c)
    (hout : ∀ r ∈ out, MayRead f c [] t r) (ops : List Op) :
    ∀ r ∈ transfer c ops out, MayRead f c ops t r := by
  induction ops with
  | nil => exact hout
  | cons op ops ih =>
    intro r hr
    rcases mem_transferOp.1 hr with ⟨h1, h2⟩ | ⟨_, i, h1, h2⟩
    · exact .later h2 (ih r h1)
    · exact .read h1 h2

theorem lv_set {l : List (Finset Nat)} {b q : Nat} {x : Finset Nat} (hb : b < l.length) :
    lv (l.set b x) q = if q = b then x else lv l q := by
  unfold lv
  by_cases h : q = b
  · subst h; simp [hb]
  · rw [List.getElem?_set_ne (Ne.symm h)]; simp [h]

/-- The room left in the live sets. -/
def room (c : Finset Nat) (l : List (Finset Nat)) : Nat := ∑ b ∈ Finset.range l.length, (c.card - (lv l b).card)

theorem liveLoop_spec {f : Body} (hr : InRange f) {preds : List (List Nat)}
    (hp : Dominance.PredsOf (f.map fun b => b.term.successors) preds) : ∀ (m k : Nat) (pending : List Nat)
      (l : List (Finset Nat)), room c l = m → pending.length = k → Inv f c pending l →
      ∃ l', liveLoop f c preds pending l = some l' ∧ Inv f c [] l' := by
  intro m
  induction m using Nat.strong_induction_on with
  | _ m ihm =>
  intro k
  induction k using Nat.strong_induction_on with
  | _ k ihk =>
  intro pending l hm hk hI
  cases pending with
  | nil => exact ⟨l, by unfold liveLoop; rfl, hI⟩
  | cons b pending =>
    have hb : b < f.length := hI.range b (by simp)
    have hbl : b < l.length := by rw [hI.len]; exact hb
    have hblk : f[b]? = some f[b] := List.getElem?_eq_getElem hb
    have hpl : b < preds.length := by rw [hp.1]; simpa using hb
    have hout : liveOut l f[b].term = some (outOf l f[b].term) :=
      liveOut_eq fun s hs => by rw [hI.len]; exact hr _ (List.getElem_mem hb) s hs
    have hlv : l[b]? = some (lv l b) := by simp [lv, List.getElem?_eq_getElem hbl]
    unfold liveLoop
    simp only [hblk, hlv, List.getElem?_eq_getElem hpl, hout, Option.bind_eq_bind, Option.bind_some]
    split
    · rename_i heq
      refine ihk _ (by rw [← hk]; simp) pending l hm rfl ⟨hI.len, fun q hq => hI.range q (by simp [hq]), hI.sub,
        hI.grows, ?_, hI.reason⟩
      intro q blk hq
      rcases hI.fixed q blk hq with h | h
      · rcases List.mem_cons.1 h with rfl | h
        · rw [hblk] at hq; cases hq
          exact Or.inr heq.symm
        · exact Or.inl h
      · exact Or.inr h
    · rename_i hne
      set new := transfer c f[b].ops (outOf l f[b].term) with hnew
      have hsubo : outOf l f[b].term ⊆ c := by
        intro r h
        obtain ⟨s, _, h⟩ := mem_outOf.1 h
        exact hI.sub s h
      have hnc : new ⊆ c := transfer_sub hsubo
      have hgrow : lv l b ⊂ new := by
        refine ⟨hI.grows b _ hblk, fun h => hne ?_⟩
        exact (Finset.Subset.antisymm (hI.grows b _ hblk) h).symm
      have hlv' : ∀ q, lv (l.set b new) q = if q = b then new else lv l q := fun q => lv_set hbl
      have hle : ∀ q, lv l q ⊆ lv (l.set b new) q := by
        intro q
        rw [hlv']
        split
        · rename_i h; subst h; exact hgrow.1
        · exact Finset.Subset.refl _
      have hole : ∀ t, outOf l t ⊆ outOf (l.set b new) t := by
        intro t r h
        obtain ⟨s, h1, h2⟩ := mem_outOf.1 h
        exact mem_outOf.2 ⟨s, h1, hle s h2⟩
      have hroom : room c (l.set b new) < m := by
        rw [← hm]
        unfold room
        rw [List.length_set]
        apply Finset.sum_lt_sum
        · intro q _
          have := Finset.card_le_card (hle q)
          omega
        · refine ⟨b, by simpa using hbl, ?_⟩
          rw [hlv' b, if_pos rfl]
          have h1 := Finset.card_lt_card hgrow
          have h2 := Finset.card_le_card hnc
          omega
      refine ihm _ hroom _ _ _ rfl rfl ⟨by simp [hI.len], ?_, ?_, ?_, ?_, ?_⟩
      · intro q hq
        rcases List.mem_append.1 hq with h | h
        · rw [List.mem_reverse] at h
          obtain ⟨ts, h1, h2⟩ := (hp.2 b _ (List.getElem?_eq_getElem hpl) q).1 h
          have := (List.getElem?_eq_some_iff.1 h1).1
          simpa using this
        · exact hI.range q (by simp [h])
      · intro q
        rw [hlv']
        split
        · exact hnc
        · exact hI.sub q
      · intro q blk hq
        rw [hlv']
        split
        · rename_i h; subst h
          rw [hblk] at hq; cases hq
          exact transfer_mono (hole _)
        · exact (hI.grows q blk hq).trans (transfer_mono (hole _))
      · intro q blk hq
        by_cases hsucc : b ∈ blk.term.successors
        · left
          refine List.mem_append_left _ (List.mem_reverse.2 ?_)
          exact (hp.2 b _ (List.getElem?_eq_getElem hpl) q).2 ⟨blk.term.successors, by simp [hq], hsucc⟩
        · have hsame : outOf (l.set b new) blk.term = outOf l blk.term := by
            ext r
            rw [mem_outOf, mem_outOf]
            constructor
            · rintro ⟨s, h1, h2⟩
              refine ⟨s, h1, ?_⟩
              rwa [hlv', if_neg (fun h : s = b => hsucc (h ▸ h1))] at h2
            · rintro ⟨s, h1, h2⟩
              exact ⟨s, h1, hle s h2⟩
          rw [hsame, hlv']
          by_cases hqb : q = b
          · subst hqb
            rw [hblk] at hq; cases hq
            right; simp [hnew]
          · rw [if_neg hqb]
            rcases hI.fixed q blk hq with h | h
            · rcases List.mem_cons.1 h with h | h
              · exact absurd h hqb
              · exact Or.inl (List.mem_append_right _ h)
            · exact Or.inr h
      · intro q blk hq r h
        rw [hlv'] at h
        split at h
        · rename_i hqb; subst hqb
          rw [hblk] at hq; cases hq
          refine mayRead_of_mem hsubo ?_ _ r h
          intro r hr
          obtain ⟨s, h1, h2⟩ := mem_outOf.1 hr
          have hs : s < f.length := by
            by_contra hs
            simp [lv, List.getElem?_eq_none (by rw [hI.len]; omega : l.length ≤ s)] at h2
          exact .jump h1 (List.getElem?_eq_getElem hs) (hI.reason s _ (List.getElem?_eq_getElem hs) r h2)
        · exact hI.reason q blk hq r h

/-- The result of the liveness analysis. -/
theorem liveness_spec {f : Body} (hr : InRange f) : ∃ l, liveness f c = some l ∧ Inv f c [] l := by
  obtain ⟨preds, h1, h2⟩ := Dominance.predecessors_spec (g := f.map fun b => b.term.successors) (by
    rintro u v ⟨ts, h1, h2⟩
    simp only [List.getElem?_map, Option.map_eq_some_iff] at h1
    obtain ⟨b, hb, rfl⟩ := h1
    simpa using hr b (List.mem_of_getElem? hb) v h2)
  have hlv : ∀ b, lv (List.replicate f.length (∅ : Finset Nat)) b = ∅ := by
    intro b
    unfold lv
    rw [List.getElem?_replicate]
    split <;> rfl
  have hinit : Inv f c (List.range f.length).reverse (List.replicate f.length ∅) := by
    refine ⟨by simp, by simp, by simp [hlv], by simp [hlv], ?_, by simp [hlv]⟩
    intro b blk hb
    left
    have := (List.getElem?_eq_some_iff.1 hb).1
    simpa using this
  obtain ⟨l, h3, h4⟩ := liveLoop_spec (c := c) hr h2 _ _ (List.range f.length).reverse
    (List.replicate f.length ∅) rfl rfl hinit
  exact ⟨l, by simp [liveness, h1, h3], h4⟩

end Ferlium.DeadStore
