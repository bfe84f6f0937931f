import Verif.Proofs.EditMerge
import Verif.Props.Graph

/-! Lemmas on reordering blocks. -/
namespace Ferlium.Edit

open Ferlium.Mir Ferlium.Graph

variable {V σ : Type} {W : World V σ} {f g : Body}

/-- The successor lists. -/
def graphOf (f : Body) : Gr := f.map fun b => b.term.successors

theorem edge_graphOf {a b : Nat} : Edge (graphOf f) a b ↔ BlockEdge f a b := by
  unfold Edge BlockEdge graphOf
  constructor
  · rintro ⟨l, h1, h2⟩
    rw [List.getElem?_map, Option.map_eq_some_iff] at h1
    obtain ⟨blk, h1, rfl⟩ := h1
    exact ⟨blk, h1, h2⟩
  · rintro ⟨blk, h1, h2⟩
    exact ⟨_, by rw [List.getElem?_map, h1]; rfl, h2⟩

theorem reach_graphOf {a b : Nat} : Reach (graphOf f) a b ↔ Relation.ReflTransGen (BlockEdge f) a b := by
  unfold Reach
  constructor
  · exact fun h => Relation.ReflTransGen.mono (fun _ _ h => edge_graphOf.1 h) _ _ h
  · exact fun h => Relation.ReflTransGen.mono (fun _ _ h => edge_graphOf.2 h) _ _ h

theorem wf_graphOf (hr : InRange f) : WF (graphOf f) := by
  intro u v h
  obtain ⟨blk, h1, h2⟩ := edge_graphOf.1 h
  simpa [graphOf] using hr blk (List.mem_of_getElem? h1) v h2

theorem idxOf?_iff {l : List Nat} (hnd : l.Nodup) (b i : Nat) : l.idxOf? b = some i ↔ l[i]? = some b := by
  constructor
  · intro h
    unfold List.idxOf? at h
    rw [List.findIdx?_eq_some_iff_getElem] at h
    obtain ⟨h1, h2, _⟩ := h
    rw [List.getElem?_eq_getElem h1]
    simpa using h2
  · intro h
    obtain ⟨h1, h2⟩ := List.getElem?_eq_some_iff.1 h
    unfold List.idxOf?
    rw [List.findIdx?_eq_some_iff_getElem]
    refine ⟨h1, by simpa using h2, fun j hj => ?_⟩
    have : l[j] ≠ l[i] := fun he => by
      have := (List.Nodup.getElem_inj_iff hnd).1 he
      omega
    rw [h2] at this
    simpa using this

/-- The order of the blocks. -/
theorem blockOrder_spec (hr : InRange f) (hne : f ≠ []) : ∃ order, blockOrder f = some order ∧ order.Nodup ∧
    (∀ b, b ∈ order ↔ b < f.length) ∧ order[0]? = some 0 ∧
    ∀ (i b : Nat), order[i]? = some b → Reachable f b → b ≠ 0 → ∃ (j : Nat) (a : Nat), j < i ∧ order[j]? = some a ∧
      BlockEdge f a b ∧ Reachable f a := by
  have hpos : 0 < (graphOf f).length := by simpa [graphOf] using List.length_pos_iff.2 hne
  obtain ⟨r, h1, h2, h3, h4, h5, h6⟩ := C25_reverse_postorder (graphOf f) (wf_graphOf hr) 0 hpos
  have hlt : ∀ b ∈ r, b < f.length := fun b hb => reachable_lt hr hne (reach_graphOf.1 ((h3 b).1 hb))
  refine ⟨r ++ (List.range f.length).filter (· ∉ r), by unfold blockOrder; rw [show (f.map fun b => b.term.successors) = graphOf f from rfl, h1]; rfl, ?_, ?_, ?_, ?_⟩
  · refine h2.append (List.nodup_range.filter _) ?_
    intro b hb hb'
    have := (List.mem_filter.1 hb').2
    simp at this
    exact this hb
  · intro b
    simp only [List.mem_append, List.mem_filter, List.mem_range, decide_eq_true_eq]
    constructor
    · rintro (h | h)
      · exact hlt b h
      · exact h.1
    · intro h
      by_cases hb : b ∈ r
      · exact Or.inl hb
      · exact Or.inr ⟨h, hb⟩
  · cases r with
    | nil => simp at h4
    | cons a r => simp at h4; simp [h4]
  · intro i b hi hb hb0
    have hbr : b ∈ r := (h3 b).2 (reach_graphOf.2 hb)
    obtain ⟨A, B, hAB⟩ := List.append_of_mem hbr
    obtain ⟨p, hp, hpe⟩ := h6 A b B hAB hb0
    have hi' : i = A.length := by
      have hnd : (r ++ (List.range f.length).filter (· ∉ r)).Nodup := by
        refine h2.append (List.nodup_range.filter _) ?_
        intro b hb hb'
        have := (List.mem_filter.1 hb').2
        simp at this
        exact this hb
      have hAl : (r ++ (List.range f.length).filter (· ∉ r))[A.length]? = some b := by
        rw [hAB]; simp
      rw [← idxOf?_iff hnd] at hi hAl
      rw [hi] at hAl
      cases hAl; rfl
    obtain ⟨j, hj⟩ := List.getElem?_of_mem hp
    have hjA := (List.getElem?_eq_some_iff.1 hj).1
    refine ⟨j, p, by omega, ?_, edge_graphOf.1 hpe, reach_graphOf.1 ((h3 p).1 (by rw [hAB]; simp [hp]))⟩
    rw [hAB, List.append_assoc, List.getElem?_append_left hjA]
    exact hj

theorem reorderBlocks_spec (hr : InRange f) (hne : f ≠ []) : ∃ g m order, reorderBlocks f = some g ∧
    Ordered f g m order ∧ (∀ b, b ∈ order ↔ b < f.length) ∧
    ∀ (i b : Nat), order[i]? = some b → Reachable f b → b ≠ 0 → ∃ (j : Nat) (a : Nat), j < i ∧ order[j]? = some a ∧
      BlockEdge f a b ∧ Reachable f a := by
  obtain ⟨order, h1, h2, h3, h4, h5⟩ := blockOrder_spec hr hne
  have htot : ∀ b ∈ order, ∃ blk', (f[b]? >>= retargetBlock order.idxOf?) = some blk' := by
    intro b hb
    have hbl := (h3 b).1 hb
    obtain ⟨t', ht'⟩ := retarget_some (m := order.idxOf?) (t := f[b].term) (fun s hs => by
      have hs' : s ∈ order := (h3 s).2 (hr f[b] (List.getElem_mem hbl) s hs)
      obtain ⟨i, hi⟩ := List.getElem?_of_mem hs'
      exact ⟨i, (idxOf?_iff h2 s i).2 hi⟩)
    exact ⟨{ f[b] with term := t' }, by rw [List.getElem?_eq_getElem hbl]; simp [retargetBlock, ht']⟩
  obtain ⟨g, hg⟩ := mapM_total htot
  have hord : Ordered f g order.idxOf? order := by
    refine ⟨h2, h4, idxOf?_iff h2, ?_⟩
    rw [List.forall₂_iff_get]
    have hlen := mapM_length hg
    refine ⟨hlen.symm, fun i hi hi' => ?_⟩
    obtain ⟨blk', g1, g2⟩ := mapM_get hg i _ (List.getElem?_eq_getElem hi)
    rw [List.getElem?_eq_getElem hi'] at g2
    cases g2
    rw [Option.bind_eq_bind, Option.bind_eq_some_iff] at g1
    obtain ⟨blk, k1, k2⟩ := g1
    exact ⟨blk, by simpa using k1, by simpa using k2⟩
  by_cases hid : order = List.range order.length
  · refine ⟨f, order.idxOf?, order, by unfold reorderBlocks; simp only [h1, Option.bind_eq_bind, Option.bind_some]; rw [if_pos hid], ?_, h3, h5⟩
    have hlen : order.length = f.length := by
      have h6 := h3 (order.length)
      rcases Nat.lt_trichotomy order.length f.length with h | h | h
      · exfalso
        have := h6.2 h
        rw [hid] at this
        simp at this
      · exact h
      · exfalso
        have := (h3 f.length).1 (by rw [hid]; simpa using h)
        omega
    refine ⟨h2, h4, idxOf?_iff h2, ?_⟩
    rw [List.forall₂_iff_get]
    refine ⟨hlen, fun i hi hi' => ?_⟩
    have hoi : order[i] = i := by
      have : order[i]? = (List.range order.length)[i]? := by rw [← hid]
      rw [List.getElem?_eq_getElem hi, List.getElem?_range hi] at this
      exact Option.some.inj this
    refine ⟨f[i], by simp [hoi, hi'], ?_⟩
    have hs : ∀ s ∈ f[i].term.successors, order.idxOf? s = some s := by
      intro s hs
      have hsl := hr f[i] (List.getElem_mem hi') s hs
      rw [idxOf?_iff h2, hid, List.getElem?_range (by omega)]
    simp only [List.get_eq_getElem]
    unfold retargetBlock
    generalize f[i] = blk at hs
    obtain ⟨ops, t⟩ := blk
    cases t <;> simp [retarget, Term.successors] at hs ⊢ <;> simp [hs]
  · refine ⟨g, order.idxOf?, order, ?_, hord, h3, h5⟩
    unfold reorderBlocks
    simp only [h1, Option.bind_eq_bind, Option.bind_some]
    rw [if_neg hid]
    exact hg

/-- Reachable without passing through `d`. -/
def ReachAvoiding (f : Body) (d b : Nat) : Prop :=
  0 ≠ d ∧ Relation.ReflTransGen (fun a b => BlockEdge f a b ∧ b ≠ d) 0 b

theorem avoid_of_order {m : Nat → Option Nat} {order : List Nat} (h : Ordered f g m order)
    (hp : ∀ (i b : Nat), order[i]? = some b → Reachable f b → b ≠ 0 → ∃ (j a : Nat), j < i ∧ order[j]? = some a ∧ BlockEdge f a b ∧ Reachable f a)
    {d : Nat} : ∀ (i b : Nat), order[i]? = some b → Reachable f b → i < d → ReachAvoiding g d i := by
  intro i
  induction i using Nat.strong_induction_on with
  | _ i ih =>
  intro b hi hb hid
  by_cases hb0 : b = 0
  · subst hb0
    have h1 := (h.number 0 i).2 hi
    have h2 := (h.number 0 0).2 h.entry
    rw [h1] at h2
    cases h2
    exact ⟨by omega, .refl⟩
  · obtain ⟨j, a, h1, h2, ⟨blk, h3, h4⟩, h5⟩ := hp i b hi hb hb0
    obtain ⟨h6, h7⟩ := ih j h1 a h2 h5 (by omega)
    refine ⟨h6, h7.tail ⟨?_, by omega⟩⟩
    obtain ⟨blk1, blk', k1, k2, k3⟩ := h.relabel.block a j ((h.number a j).2 h2)
    rw [h3] at k1; cases k1
    obtain ⟨x, hx, hmx⟩ := forall₂_mem (retarget_successors (retargetBlock_term k2)) h4
    rw [(h.number b i).2 hi] at hmx
    cases hmx
    exact ⟨blk', k3, hx⟩

/-- A reachable block comes from a reachable one. -/
theorem reachable_back {m : Nat → Option Nat} {order : List Nat} (h : Ordered f g m order) {i a : Nat}
    (hi : Reachable g i) (ha : m a = some i) : Reachable f a := by
  have inj : ∀ {a b i}, m a = some i → m b = some i → a = b := by
    intro a b i ha hb
    have ha := (h.number a i).1 ha
    have hb := (h.number b i).1 hb
    rw [ha] at hb
    cases hb; rfl
  induction hi generalizing a with
  | refl =>
    have := inj ha h.relabel.entry
    subst this
    exact .refl
  | @tail i j _ he ih =>
    obtain ⟨blk', h1, h2⟩ := he
    obtain ⟨b, blk, g1, g2, g3, g4⟩ := h.get h1
    obtain ⟨c, hc, hmc⟩ := forall₂_mem' (retarget_successors (retargetBlock_term g4)) h2
    have := inj ha hmc
    subst this
    exact (ih g2).tail ⟨blk, g3, hc⟩

end Ferlium.Edit
