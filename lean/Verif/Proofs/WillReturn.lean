import Verif.Model.WillReturn
import Verif.Proofs.EditOrder
import Mathlib.Algebra.BigOperators.Group.Finset.Basic
import Mathlib.Algebra.BigOperators.Group.Finset.Piecewise
import Mathlib.Data.Fintype.Card
import Mathlib.Order.WellFounded
import Mathlib.Tactic
import Mathlib.Order.OrderIsoNat

/-! Counting edges finds the cycles among the reachable blocks. -/
namespace Ferlium.WillReturn

open Ferlium.Mir Ferlium.Edit

variable {f : Body} {R : Finset Nat}

/-- The successors of a block. -/
def succ (f : Body) (b : Nat) : List Nat := (f[b]?.map fun blk => blk.term.successors).getD []

theorem mem_succ {u v : Nat} : v ∈ succ f u ↔ BlockEdge f u v := by
  unfold succ BlockEdge
  cases h : f[u]? with
  | none => simp
  | some blk => simp

theorem succ_eq {b : Nat} {blk : Block} (h : f[b]? = some blk) : succ f b = blk.term.successors := by
  unfold succ; rw [h]; rfl

theorem addEdges_spec : ∀ (l : List Nat) (deg : List Nat), (∀ t ∈ l, t < deg.length) →
    ∃ deg', l.foldlM (addEdge R) deg = some deg' ∧ deg'.length = deg.length ∧
      ∀ v d, deg[v]? = some d → deg'[v]? = some (d + if v ∈ R then l.count v else 0)
  | [], deg, _ => ⟨deg, rfl, rfl, fun v d h => by simp [h]⟩
  | t :: l, deg, h => by
    have ht := List.getElem?_eq_getElem (h t (by simp))
    have hstep : addEdge R deg t = some (if t ∈ R then deg.set t (deg[t]'(h t (by simp)) + 1) else deg) := by
      unfold addEdge; rw [ht]
    obtain ⟨deg', h1, h2, h3⟩ := addEdges_spec l (if t ∈ R then deg.set t (deg[t]'(h t (by simp)) + 1) else deg) (by
      intro x hx
      split
      · simpa using h x (by simp [hx])
      · exact h x (by simp [hx]))
    refine ⟨deg', by rw [List.foldlM_cons, hstep]; exact h1, ?_, ?_⟩
    · rw [h2]; split <;> simp
    · intro v d hv
      by_cases hR : t ∈ R
      · simp only [if_pos hR] at h3
        by_cases hvt : v = t
        · subst hvt
          rw [ht] at hv
          cases hv
          rw [h3 v (deg[v]'(h v (by simp)) + 1) (by rw [List.getElem?_set_self (h v (by simp))])]
          simp [hR]; omega
        · rw [h3 v d (by rw [List.getElem?_set_ne (fun h => hvt h.symm)]; exact hv)]
          rw [List.count_cons_of_ne (fun h => hvt h.symm)]
      · simp only [if_neg hR] at h3
        rw [h3 v d hv]
        by_cases hvt : v = t
        · subst hvt; simp [hR]
        · rw [List.count_cons_of_ne (fun h => hvt h.symm)]

/-- The number of edges into a block from blocks which are not removed. -/
def incoming (f : Body) (U : Finset Nat) (v : Nat) : Nat := ∑ u ∈ U, (succ f u).count v

theorem degrees_spec (hr : InRange f) (hR : ∀ b ∈ R, b < f.length) :
    ∃ deg, degrees f R = some deg ∧ deg.length = f.length ∧ ∀ v ∈ R, deg[v]? = some (incoming f R v) := by
  obtain ⟨deg, h1, h2, h3⟩ := addEdges_spec (R := R)
    ((f.zipIdx.filter fun p => p.2 ∈ R).flatMap fun p => p.1.term.successors) (List.replicate f.length 0) (by
      intro t ht
      obtain ⟨p, hp, ht⟩ := List.mem_flatMap.1 ht
      have := (List.mem_filter.1 hp).1
      rw [List.length_replicate]
      exact hr p.1 (List.fst_mem_of_mem_zipIdx this) t ht)
  refine ⟨deg, h1, by simpa using h2, ?_⟩
  intro v hv
  rw [h3 v 0 (by simp [hR v hv]), if_pos hv, Nat.zero_add, List.count_flatMap]
  congr 1
  have e1 : ((f.zipIdx.filter fun p => p.2 ∈ R).map (List.count v ∘ fun p => p.1.term.successors)) =
      ((f.zipIdx.filter fun p => p.2 ∈ R).map Prod.snd).map fun u => (succ f u).count v := by
    rw [List.map_map]
    apply List.map_congr_left
    intro p hp
    have := List.mem_zipIdx_iff_getElem?.1 (List.mem_filter.1 hp).1
    simp only [Function.comp]
    rw [succ_eq this]
  have e2 : (f.zipIdx.filter fun p => p.2 ∈ R).map Prod.snd = (List.range f.length).filter (· ∈ R) := by
    have : f.zipIdx.map Prod.snd = List.range f.length := by
      rw [List.zipIdx_map_snd, List.range_eq_range']
    rw [← this, List.filter_map]
    rfl
  rw [e1, e2, ← List.sum_toFinset _ (List.nodup_range.filter _)]
  unfold incoming
  apply Finset.sum_congr _ fun _ _ => rfl
  ext b
  simp only [List.mem_toFinset, List.mem_filter, List.mem_range, decide_eq_true_eq]
  exact ⟨fun h => h.2, fun h => ⟨hR b h, h⟩⟩

/-- What the removal maintains: `removed` are the blocks removed so far, in order. -/
structure Inv (f : Body) (R : Finset Nat) (removed degree pending : List Nat) : Prop where
  len : degree.length = f.length
  nodup : (removed ++ pending).Nodup
  sub : ∀ v ∈ removed ++ pending, v ∈ R
  count : ∀ v ∈ R, degree[v]? = some (incoming f (R \ removed.toFinset) v)
  zero : ∀ v ∈ R, v ∈ removed ++ pending ↔ degree[v]? = some 0
  order : ∀ A v B, removed = A ++ v :: B → ∀ u ∈ R, v ∈ succ f u → u ∈ A

/-- The inner loop: `rest` are the edges still to be removed. -/
theorem removeEdges_spec (hR : ∀ b ∈ R, b < f.length) (U : Finset Nat) (done : List Nat) :
    ∀ (rest degree pending : List Nat), (∀ t ∈ rest, t < f.length) → degree.length = f.length →
      (done ++ pending).Nodup → (∀ v ∈ done ++ pending, v ∈ R) →
      (∀ v ∈ R, degree[v]? = some (incoming f U v + rest.count v)) →
      (∀ v ∈ R, v ∈ done ++ pending ↔ degree[v]? = some 0) →
      ∃ s, rest.foldlM (removeEdge R) (degree, pending) = some s ∧ s.1.length = f.length ∧ (done ++ s.2).Nodup ∧
        (∀ v ∈ done ++ s.2, v ∈ R) ∧ (∀ v ∈ R, s.1[v]? = some (incoming f U v)) ∧
        (∀ v ∈ R, v ∈ done ++ s.2 ↔ s.1[v]? = some 0)
  | [], degree, pending, _, h2, h3, h4, h5, h6 => ⟨_, rfl, h2, h3, h4, by simpa using h5, h6⟩
  | t :: rest, degree, pending, h1, h2, h3, h4, h5, h6 => by
    have ht := List.getElem?_eq_getElem (l := degree) (by rw [h2]; exact h1 t (by simp))
    by_cases htR : t ∈ R
    · have hd := h5 t htR
      rw [List.count_cons_self, ← Nat.add_assoc] at hd
      have hlt : t < degree.length := by rw [h2]; exact hR t htR
      have hnot : t ∉ done ++ pending := by rw [h6 t htR, hd]; simp
      have hstep : removeEdge R (degree, pending) t =
          some (degree.set t (incoming f U t + rest.count t), if incoming f U t + rest.count t = 0 then pending ++ [t] else pending) := by
        unfold removeEdge
        simp only [hd, if_pos htR]
      rw [List.foldlM_cons, hstep]
      refine removeEdges_spec hR U done rest _ _ (fun x hx => h1 x (by simp [hx])) (by simpa using h2) ?_ ?_ ?_ ?_
      · split
        · rw [← List.append_assoc]
          rw [List.nodup_append]
          refine ⟨h3, by simp, ?_⟩
          rintro a ha b hb rfl
          simp at hb
          subst hb
          exact hnot ha
        · exact h3
      · intro v hv
        split at hv
        · rw [← List.append_assoc, List.mem_append, List.mem_singleton] at hv
          rcases hv with hv | rfl
          · exact h4 v hv
          · exact htR
        · exact h4 v hv
      · intro v hv
        by_cases hvt : v = t
        · subst hvt
          rw [List.getElem?_set_self hlt]
        · rw [List.getElem?_set_ne (fun h => hvt h.symm), h5 v hv, List.count_cons_of_ne (fun h => hvt h.symm)]
      · intro v hv
        by_cases hvt : v = t
        · subst hvt
          rw [List.getElem?_set_self hlt]
          split
          · rename_i h0
            simp [h0]
          · rename_i h0
            constructor
            · intro h; exact absurd h hnot
            · intro h; exact absurd (by simpa using h) h0
        · rw [List.getElem?_set_ne (fun h => hvt h.symm), ← h6 v hv]
          split
          · simp [hvt]
          · exact Iff.rfl
    · have hstep : removeEdge R (degree, pending) t = some (degree, pending) := by
        unfold removeEdge
        simp only [ht, if_neg htR]
      rw [List.foldlM_cons, hstep]
      refine removeEdges_spec hR U done rest _ _ (fun x hx => h1 x (by simp [hx])) h2 h3 h4 ?_ h6
      intro v hv
      have hvt : v ≠ t := fun h => htR (h ▸ hv)
      rw [h5 v hv, List.count_cons_of_ne (fun h => hvt h.symm)]

theorem removeLoop_spec (hr : InRange f) (hR : ∀ b ∈ R, b < f.length) : ∀ (m : Nat) (removed degree pending : List Nat),
    R.card - removed.length = m → Inv f R removed degree pending →
    ∃ removed' degree', removeLoop f R degree pending removed.length = some removed'.length ∧ Inv f R removed' degree' [] := by
  intro m
  induction m using Nat.strong_induction_on with
  | _ m ih =>
  intro removed degree pending hm hinv
  cases pending with
  | nil => exact ⟨removed, degree, by unfold removeLoop; rfl, hinv⟩
  | cons b pending =>
    have hbR : b ∈ R := hinv.sub b (by simp)
    have hb := List.getElem?_eq_getElem (hR b hbR)
    have hnd : (removed ++ [b] ++ pending).Nodup := by simpa using hinv.nodup
    have hbrem : b ∉ removed := by
      have := (List.nodup_append.1 hinv.nodup).2.2
      exact fun h => this b h b (by simp) rfl
    have hlen : removed.length < R.card := by
      have h1 : (removed ++ [b]).toFinset ⊆ R := by
        intro v hv
        rw [List.mem_toFinset] at hv
        exact hinv.sub v (by simp at hv ⊢; tauto)
      have h2 := Finset.card_le_card h1
      rw [List.toFinset_card_of_nodup (List.nodup_append.1 hnd).1] at h2
      simp at h2
      omega
    have hU : R \ removed.toFinset = insert b (R \ (removed ++ [b]).toFinset) := by
      ext v
      simp only [Finset.mem_sdiff, List.mem_toFinset, Finset.mem_insert, List.mem_append, List.mem_singleton, not_or]
      constructor
      · rintro ⟨h1, h2⟩
        by_cases hvb : v = b
        · exact Or.inl hvb
        · exact Or.inr ⟨h1, h2, hvb⟩
      · rintro (rfl | ⟨h1, h2, _⟩)
        · exact ⟨hbR, hbrem⟩
        · exact ⟨h1, h2⟩
    have hzero := (hinv.zero b hbR).1 (by simp)
    rw [hinv.count b hbR] at hzero
    have hzero : incoming f (R \ removed.toFinset) b = 0 := by simpa using hzero
    obtain ⟨s, h1, h2, h3, h4, h5, h6⟩ := removeEdges_spec hR (R \ (removed ++ [b]).toFinset) (removed ++ [b])
      (succ f b) degree pending (by
        intro t ht
        rw [succ_eq hb] at ht
        exact hr _ (List.getElem_mem _) t ht) hinv.len hnd (by
        intro v hv; exact hinv.sub v (by simp at hv ⊢; tauto)) (by
        intro v hv
        rw [hinv.count v hv, hU]
        unfold incoming
        rw [Finset.sum_insert (by simp)]
        rw [Nat.add_comm]) (by
        intro v hv
        rw [← hinv.zero v hv]
        simp)
    have hinv' : Inv f R (removed ++ [b]) s.1 s.2 := by
      refine ⟨h2, h3, h4, h5, h6, ?_⟩
      intro A v B hAB u hu hv
      rcases List.append_eq_append_iff.1 hAB with ⟨C, e1, e2⟩ | ⟨C, e1, e2⟩
      · cases C with
        | nil =>
          simp at e1 e2
          obtain ⟨rfl, rfl⟩ := e2
          subst e1
          by_contra hu'
          have : 0 < (succ f u).count b := List.count_pos_iff.2 hv
          have h0 := Finset.sum_eq_zero_iff.1 hzero u (by simp [hu, hu'])
          omega
        | cons c C => simp at e2
      · cases C with
        | nil =>
          simp at e1 e2
          obtain ⟨rfl, rfl⟩ := e2
          subst e1
          by_contra hu'
          have : 0 < (succ f u).count v := List.count_pos_iff.2 hv
          have h0 := Finset.sum_eq_zero_iff.1 hzero u (by simp [hu, hu'])
          omega
        | cons c C =>
          simp at e2
          obtain ⟨rfl, rfl⟩ := e2
          exact hinv.order A v C e1 u hu hv
    obtain ⟨removed', degree', k1, k2⟩ := ih (R.card - (removed ++ [b]).length) (by simp; omega) (removed ++ [b]) s.1 s.2 rfl hinv'
    refine ⟨removed', degree', ?_, k2⟩
    rw [succ_eq hb] at h1
    unfold removeLoop
    simp only [hb]
    rw [h1]
    simpa using k1

/-- The cycle test is exact. -/
theorem hasCycle_spec (hr : InRange f) (hR : ∀ b ∈ R, b < f.length) (hclosed : ∀ b ∈ R, ∀ b', BlockEdge f b b' → b' ∈ R) :
    ∃ c, hasCycle f R = some c ∧ (c = true ↔ ∃ v ∈ R, Relation.TransGen (BlockEdge f) v v) := by
  obtain ⟨deg, h1, h2, h3⟩ := degrees_spec hr hR
  have hinit : Inv f R [] deg ((List.range f.length).filter fun b => b ∈ R && deg[b]? == some 0) := by
    refine ⟨h2, by simpa using List.nodup_range.filter _, ?_, by simpa using h3, ?_, by simp⟩
    · intro v hv
      simp at hv
      exact hv.2.1
    · intro v hv
      simp [hv, hR v hv]
  obtain ⟨removed, deg', k1, k2⟩ := removeLoop_spec hr hR _ [] deg _ rfl hinit
  refine ⟨_, by unfold hasCycle; rw [h1]; simp only [Option.bind_eq_bind, Option.bind_some]; rw [List.length_nil] at k1; rw [k1]; rfl, ?_⟩
  have hnd : removed.Nodup := by simpa using k2.nodup
  have hsub : removed.toFinset ⊆ R := by
    intro v hv; exact k2.sub v (by simpa using hv)
  have hcard := List.toFinset_card_of_nodup hnd
  rw [bne_iff_ne]
  constructor
  · intro hne
    have hex : ∃ v, v ∈ R ∧ v ∉ removed := by
      by_contra hno
      push Not at hno
      apply hne
      rw [← hcard]
      congr 1
      apply Finset.Subset.antisymm hsub
      intro v hv; rw [List.mem_toFinset]; exact hno v hv
    by_contra hac
    push Not at hac
    let T := {v // v ∈ R ∧ v ∉ removed}
    haveI : Finite T := by
      have : Finite {v // v ∈ R} := inferInstance
      exact Finite.of_injective (fun v : T => (⟨v.1, v.2.1⟩ : {v // v ∈ R})) (by
        intro a b h; exact Subtype.ext (by simpa using h))
    let r : T → T → Prop := fun a b => Relation.TransGen (BlockEdge f) a.1 b.1
    haveI : IsTrans T r := ⟨fun a b c h1 h2 => h1.trans h2⟩
    haveI : Std.Irrefl r := ⟨fun a h => hac a.1 a.2.1 h⟩
    have hwf : WellFounded r := Finite.wellFounded_of_trans_of_irrefl r
    obtain ⟨v, hv⟩ := hex
    obtain ⟨m, -, hm⟩ := hwf.has_min Set.univ ⟨⟨v, hv⟩, trivial⟩
    apply m.2.2
    have : m.1 ∈ removed ++ [] := (k2.zero m.1 m.2.1).2 (by
      rw [k2.count m.1 m.2.1]
      congr 1
      unfold incoming
      apply Finset.sum_eq_zero
      intro u hu
      simp only [Finset.mem_sdiff, List.mem_toFinset] at hu
      rw [List.count_eq_zero]
      intro he
      exact hm ⟨u, hu⟩ trivial (.single (mem_succ.1 he)))
    simpa using this
  · rintro ⟨v, hv, hc⟩ hlen
    have hall : ∀ u ∈ R, u ∈ removed := by
      have : removed.toFinset = R := Finset.eq_of_subset_of_card_le hsub (by omega)
      intro u hu
      rw [← this] at hu
      simpa using hu
    have hlt : ∀ a b, BlockEdge f a b → a ∈ R → removed.idxOf a < removed.idxOf b := by
      intro a b he ha
      have hb := hall b (hclosed a ha b he)
      obtain ⟨A, B, hAB⟩ := List.append_of_mem hb
      have haA := k2.order A b B hAB a ha (mem_succ.2 he)
      have hbA : b ∉ A := by
        rw [hAB] at hnd
        exact fun h => (List.nodup_append.1 hnd).2.2 b h b (by simp) rfl
      rw [hAB, List.idxOf_append_of_mem haA, List.idxOf_append_of_notMem hbA]
      have := List.idxOf_lt_length_of_mem haA
      omega
    have key : ∀ a, Relation.TransGen (BlockEdge f) v a → a ∈ R ∧ removed.idxOf v < removed.idxOf a := by
      intro a h
      induction h with
      | single he => exact ⟨hclosed v hv _ he, hlt _ _ he hv⟩
      | tail _ he ih => exact ⟨hclosed _ ih.1 _ he, lt_trans ih.2 (hlt _ _ he ih.1)⟩
    exact absurd (key v hc).2 (lt_irrefl _)

/-! ### What a function does -/

/-- The operand which names the function an operation runs. -/
def calleeOperand (op : Op) : Option (Option Value) :=
  match op.kind with
  | .call _ _ => some op.operands[0]?
  | .clone _ => some op.operands[2]?
  | .drop _ => some op.operands[1]?
  | _ => none

/-- Operations which run functions found in values, any number of times. -/
def RunsValues (op : Op) : Prop :=
  (∃ ty, op.kind = .project ty) ∨ op.kind = .endProject ∨ (∃ ty, op.kind = .cloneClosureEnv ty) ∨ op.kind = .dropClosureEnv

/-- The functions an operation may run: the one which is named, or any if it is a value found at run time. -/
def MayRun (op : Op) (k : Nat) : Prop :=
  RunsValues op ∨ ∃ v, calleeOperand op = some v ∧ ∀ j, v = some (.function j) → k = j

/-- An activation of a function. -/
structure Frame where
  body : Body
  ops : List Op
  term : Term

/-- The activation which starts at a block. -/
def Frame.at? (f : Body) (b : Nat) : Option Frame := f[b]?.map fun blk => ⟨f, blk.ops, blk.term⟩

/-- One step of a program, whatever the data.  `P` gives the bodies; a function without a body takes one step (a host
function returns).  An activation may end at any point, with an error or a panic. -/
inductive Steps (P : Nat → Option Body) : List Frame → List Frame → Prop
  | stop {fr rest} : Steps P (fr :: rest) rest
  | next {f op ops t rest} : Steps P (⟨f, op :: ops, t⟩ :: rest) (⟨f, ops, t⟩ :: rest)
  | call {f op ops t rest k g fr} : MayRun op k → P k = some g → Frame.at? g 0 = some fr →
      Steps P (⟨f, op :: ops, t⟩ :: rest) (fr :: ⟨f, ops, t⟩ :: rest)
  | again {f op ops t rest k g fr} : RunsValues op → P k = some g → Frame.at? g 0 = some fr →
      Steps P (⟨f, op :: ops, t⟩ :: rest) (fr :: ⟨f, op :: ops, t⟩ :: rest)
  | jump {f t b rest fr} : b ∈ t.successors → Frame.at? f b = some fr → Steps P (⟨f, [], t⟩ :: rest) (fr :: rest)
  | invoke {f op n e b rest fr k g fr'} : b = n ∨ b = e → Frame.at? f b = some fr → MayRun op k → P k = some g →
      Frame.at? g 0 = some fr' → Steps P (⟨f, [], .invoke op n e⟩ :: rest) (fr' :: fr :: rest)
  | invokeAgain {f op n e rest k g fr} : RunsValues op → P k = some g → Frame.at? g 0 = some fr →
      Steps P (⟨f, [], .invoke op n e⟩ :: rest) (fr :: ⟨f, [], .invoke op n e⟩ :: rest)

/-- The stack from which a function starts. -/
def startOf (P : Nat → Option Body) (k : Nat) : List Frame := (((P k).bind fun f => Frame.at? f 0).map fun fr => [fr]).getD []

/-- Every execution of the function is finite. -/
def Finishes (P : Nat → Option Body) (k : Nat) : Prop :=
  ¬ ∃ s : Nat → List Frame, s 0 = startOf P k ∧ ∀ n, Steps P (s n) (s (n + 1))

variable {P : Nat → Option Body}

/-- The same as accessibility. -/
def Halts (P : Nat → Option Body) (s : List Frame) : Prop := Acc (fun a b => Steps P b a) s

theorem finishes_iff {k : Nat} : Finishes P k ↔ Halts P (startOf P k) := by
  unfold Finishes Halts
  constructor
  · intro h
    by_contra hn
    obtain ⟨s, h0, hs⟩ := not_acc_iff_exists_descending_chain.1 hn
    exact h ⟨s, h0, hs⟩
  · intro h hn
    exact not_acc_iff_exists_descending_chain.2 hn h

theorem halts_nil : Halts P [] := ⟨_, fun _ h => by cases h⟩

theorem steps_append {s rest s' : List Frame} (hs : s ≠ []) (h : Steps P (s ++ rest) s') :
    ∃ s'', s' = s'' ++ rest ∧ Steps P s s'' := by
  cases s with
  | nil => exact absurd rfl hs
  | cons fr s =>
    rw [List.cons_append] at h
    cases h with
    | stop => exact ⟨s, rfl, .stop⟩
    | next => exact ⟨_ :: s, rfl, .next⟩
    | call h1 h2 h3 => exact ⟨_ :: _ :: s, rfl, .call h1 h2 h3⟩
    | again h1 h2 h3 => exact ⟨_ :: _ :: s, rfl, .again h1 h2 h3⟩
    | jump h1 h2 => exact ⟨_ :: s, rfl, .jump h1 h2⟩
    | invoke h1 h2 h3 h4 h5 => exact ⟨_ :: _ :: s, rfl, .invoke h1 h2 h3 h4 h5⟩
    | invokeAgain h1 h2 h3 => exact ⟨_ :: _ :: s, rfl, .invokeAgain h1 h2 h3⟩

theorem halts_append {s rest : List Frame} (h : Halts P s) (hr : Halts P rest) : Halts P (s ++ rest) := by
  induction h with
  | intro s _ ih =>
    by_cases hs : s = []
    · subst hs; exact hr
    · refine ⟨_, fun s' h => ?_⟩
      obtain ⟨s'', rfl, h1⟩ := steps_append hs h
      exact ih s'' h1

/-- The body finishes if all calls it makes do. -/
structure Simple (P : Nat → Option Body) (f : Body) : Prop where
  acyclic : ∀ b, Reachable f b → ¬ Relation.TransGen (BlockEdge f) b b
  calls : ∀ (b : Nat) (blk : Block), Reachable f b → f[b]? = some blk → ∀ op ∈ blockOps blk, ¬ RunsValues op ∧
    ∀ k, MayRun op k → Halts P (startOf P k)

theorem halts_call {k : Nat} {g : Body} {fr : Frame} {rest : List Frame} (h : Halts P (startOf P k)) (h1 : P k = some g)
    (h2 : Frame.at? g 0 = some fr) (hr : Halts P rest) : Halts P (fr :: rest) := by
  have : startOf P k = [fr] := by unfold startOf; rw [h1, Option.bind_some, h2]; rfl
  rw [this] at h
  exact halts_append h hr

theorem halts_block {f : Body} (hf : Simple P f) {b : Nat} {blk : Block} (hb : f[b]? = some blk) (hre : Reachable f b)
    (hsucc : ∀ b', BlockEdge f b b' → ∀ fr, Frame.at? f b' = some fr → ∀ rest, Halts P rest → Halts P (fr :: rest)) :
    ∀ ops, (∀ op ∈ ops, op ∈ blk.ops) → ∀ rest, Halts P rest → Halts P (⟨f, ops, blk.term⟩ :: rest) := by
  intro ops
  induction ops with
  | nil =>
    intro _ rest hrest
    refine ⟨_, fun s h => ?_⟩
    cases hterm : blk.term with
    | invoke op n e =>
      have hop : op ∈ blockOps blk := by unfold blockOps; rw [hterm]; simp
      rw [hterm] at h
      cases h with
      | stop => exact hrest
      | jump h1 h2 => exact hsucc _ ⟨blk, hb, by rw [hterm]; exact h1⟩ _ h2 rest hrest
      | invoke h1 h2 h3 h4 h5 =>
        refine halts_call ((hf.calls b blk hre hb op hop).2 _ h3) h4 h5 (hsucc _ ⟨blk, hb, ?_⟩ _ h2 rest hrest)
        rw [hterm]
        rcases h1 with rfl | rfl <;> simp [Term.successors]
      | invokeAgain h1 => exact absurd h1 (hf.calls b blk hre hb op hop).1
    | _ =>
      rw [hterm] at h
      cases h with
      | stop => exact hrest
      | jump h1 h2 => exact hsucc _ ⟨blk, hb, by rw [hterm]; exact h1⟩ _ h2 rest hrest
  | cons op ops ih =>
    intro hops rest hrest
    have hop : op ∈ blockOps blk := by unfold blockOps; simp [hops op (by simp)]
    have hnext := ih (fun o ho => hops o (by simp [ho])) rest hrest
    refine ⟨_, fun s h => ?_⟩
    cases h with
    | stop => exact hrest
    | next => exact hnext
    | call h1 h2 h3 => exact halts_call ((hf.calls b blk hre hb op hop).2 _ h1) h2 h3 hnext
    | again h1 => exact absurd h1 (hf.calls b blk hre hb op hop).1

theorem halts_body {f : Body} (hr : InRange f) (hne : f ≠ []) (hf : Simple P f) {fr : Frame} (h : Frame.at? f 0 = some fr) :
    Halts P [fr] := by
  let T := {b // Reachable f b}
  haveI : Finite T := Finite.of_injective (fun b : T => (⟨b.1, reachable_lt hr hne b.2⟩ : Fin f.length)) (by
    intro a b h; exact Subtype.ext (by simpa using h))
  let r : T → T → Prop := fun a b => Relation.TransGen (BlockEdge f) b.1 a.1
  haveI : IsTrans T r := ⟨fun a b c h1 h2 => h2.trans h1⟩
  haveI : Std.Irrefl r := ⟨fun a h => hf.acyclic a.1 a.2 h⟩
  have hwf : WellFounded r := Finite.wellFounded_of_trans_of_irrefl r
  have key : ∀ b : T, ∀ fr, Frame.at? f b.1 = some fr → ∀ rest, Halts P rest → Halts P (fr :: rest) := by
    intro b
    induction b using hwf.induction with
    | _ b ih =>
      intro fr hfr rest hrest
      unfold Frame.at? at hfr
      cases hb : f[b.1]? with
      | none => rw [hb] at hfr; cases hfr
      | some blk =>
        rw [hb] at hfr
        cases hfr
        refine halts_block hf hb b.2 ?_ blk.ops (fun _ h => h) rest hrest
        intro b' he fr' hfr' rest' hrest'
        exact ih ⟨b', b.2.tail he⟩ (.single he) fr' hfr' rest' hrest'
  exact key ⟨0, .refl⟩ fr h [] halts_nil

end Ferlium.WillReturn
