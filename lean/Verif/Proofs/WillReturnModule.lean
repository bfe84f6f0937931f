import Verif.Proofs.WillReturn
import Verif.Props.Graph

/-! The summaries of a module. -/
namespace Ferlium.WillReturn

open Ferlium.Mir Ferlium.Edit

variable {f : Body} {index : Nat → Option Nat} {external : Nat → Bool} {bodies : List (Option Body)} {known : List Bool}

/-- No execution of the body goes through a block twice. -/
def Acyclic (f : Body) : Prop := ∀ b, Reachable f b → ¬ Relation.TransGen (BlockEdge f) b b

/-- The function an operation runs is always named, and the body does not suspend. -/
def Direct (f : Body) : Prop := ∀ (b : Nat) (blk : Block), Reachable f b → f[b]? = some blk →
  (∀ op ∈ blockOps blk, ¬ RunsValues op ∧ ∀ v, calleeOperand op = some v → ∃ k, v = some (.function k)) ∧
  ∀ v r, blk.term ≠ .yield v r

/-- The body runs the function. -/
def Calls (f : Body) (k : Nat) : Prop := ∃ (b : Nat) (blk : Block) (op : Op), Reachable f b ∧ f[b]? = some blk ∧
  op ∈ blockOps blk ∧ calleeOperand op = some (some (.function k))

/-- The function returns because it has no loop and runs only functions which do. -/
inductive Returns (index : Nat → Option Nat) (external : Nat → Bool) (bodies : List (Option Body)) : Nat → Prop
  | host {i} : bodies[i]? = some none → Returns index external bodies i
  | script {i f} : bodies[i]? = some (some f) → Acyclic f → Direct f →
      (∀ k j, Calls f k → index k = some j → Returns index external bodies j) →
      (∀ k, Calls f k → index k = none → external k = true) → Returns index external bodies i

theorem operationReturns_iff {returns : Nat → Bool} {op : Op} : operationReturns returns op = true ↔
    ¬ RunsValues op ∧ ∀ v, calleeOperand op = some v → ∃ k, v = some (.function k) ∧ returns k = true := by
  have hd : ∀ v : Option Value, direct returns v = true ↔ ∃ k, v = some (.function k) ∧ returns k = true := by
    intro v
    rcases v with _ | v
    · simp [direct]
    · cases v <;> simp [direct]
  unfold operationReturns calleeOperand RunsValues
  cases hk : op.kind <;> simp [hd]

theorem termReturns_iff {returns : Nat → Bool} {t : Term} : termReturns returns t = true ↔
    (∀ v r, t ≠ .yield v r) ∧ ∀ op n e, t = .invoke op n e → operationReturns returns op = true := by
  cases t <;> simp [termReturns]

theorem derive_spec (hr : InRange f) (hne : f ≠ []) : ∃ d, derive index external known f = some d ∧
    (d = true ↔ Acyclic f ∧ Direct f ∧ ∀ k, Calls f k → calleeReturns index known external k = true) := by
  obtain ⟨R, h1, -, h2, h3, h4⟩ := reachLoop_spec hr hne _ _ [0] ∅ rfl rfl (by simp)
    (by intro b hb; rw [List.mem_singleton] at hb; subst hb; exact .refl) (by simp)
  have hR : ∀ b, b ∈ R ↔ Reachable f b := by
    intro b
    refine ⟨h3 b, fun h => ?_⟩
    induction h with
    | refl => exact h2 0 (by simp)
    | tail _ he ih => exact h4 _ ih _ he
  obtain ⟨c, h5, h6⟩ := hasCycle_spec hr (fun b hb => reachable_lt hr hne (h3 b hb)) h4
  refine ⟨_, by unfold derive; rw [h1]; simp only [Option.bind_eq_bind, Option.bind_some]; rw [h5]; rfl, ?_⟩
  rw [Bool.and_eq_true, Bool.not_eq_true', Bool.eq_false_iff, Ne, h6, List.all_eq_true]
  have hac : (¬ ∃ v ∈ R, Relation.TransGen (BlockEdge f) v v) ↔ Acyclic f := by
    unfold Acyclic
    push Not
    exact ⟨fun h b hb => h b ((hR b).2 hb), fun h b hb => h b ((hR b).1 hb)⟩
  rw [hac]
  refine and_congr_right fun _ => ?_
  have hall : (∀ p ∈ f.zipIdx.filter (fun p => p.2 ∈ R), (p.1.ops.all (operationReturns (calleeReturns index known external)) &&
      termReturns (calleeReturns index known external) p.1.term) = true) ↔
      ∀ (b : Nat) (blk : Block), Reachable f b → f[b]? = some blk →
        (∀ op ∈ blockOps blk, operationReturns (calleeReturns index known external) op = true) ∧
        ∀ v r, blk.term ≠ .yield v r := by
    constructor
    · intro h b blk hb hblk
      have := h (blk, b) (List.mem_filter.2 ⟨List.mem_zipIdx_iff_getElem?.2 hblk, by simpa using (hR b).2 hb⟩)
      rw [Bool.and_eq_true, List.all_eq_true, termReturns_iff] at this
      refine ⟨?_, this.2.1⟩
      intro op hop
      unfold blockOps at hop
      rw [List.mem_append] at hop
      rcases hop with hop | hop
      · exact this.1 op hop
      · cases ht : blk.term with
        | invoke o n e =>
          rw [ht] at hop
          simp at hop
          subst hop
          exact this.2.2 op n e ht
        | _ => rw [ht] at hop; simp at hop
    · rintro h ⟨blk, b⟩ hp
      rw [List.mem_filter] at hp
      obtain ⟨k1, k2⟩ := h b blk ((hR b).1 (by simpa using hp.2)) (List.mem_zipIdx_iff_getElem?.1 hp.1)
      rw [Bool.and_eq_true, List.all_eq_true, termReturns_iff]
      refine ⟨fun op hop => k1 op (by unfold blockOps; simp [hop]), k2, ?_⟩
      intro op n e ht
      exact k1 op (by unfold blockOps; simp only [] at ht; rw [ht]; simp)
  rw [hall]
  simp only [operationReturns_iff]
  constructor
  · intro h
    refine ⟨?_, ?_⟩
    · intro b blk hb hblk
      refine ⟨fun op hop => ⟨((h b blk hb hblk).1 op hop).1, fun v hv => ?_⟩, (h b blk hb hblk).2⟩
      obtain ⟨k, hk, _⟩ := ((h b blk hb hblk).1 op hop).2 v hv
      exact ⟨k, hk⟩
    · rintro k ⟨b, blk, op, hb, hblk, hop, hc⟩
      obtain ⟨k', hk, hret⟩ := ((h b blk hb hblk).1 op hop).2 _ hc
      cases hk
      exact hret
  · rintro ⟨h1, h2⟩ b blk hb hblk
    refine ⟨fun op hop => ⟨((h1 b blk hb hblk).1 op hop).1, fun v hv => ?_⟩, (h1 b blk hb hblk).2⟩
    obtain ⟨k, rfl⟩ := ((h1 b blk hb hblk).1 op hop).2 v hv
    exact ⟨k, rfl, h2 k ⟨b, blk, op, hb, hblk, hop, hv⟩⟩

/-! ### The loops -/

/-- What is proved so far is right. -/
structure Right (index : Nat → Option Nat) (external : Nat → Bool) (bodies : List (Option Body)) (known : List Bool) : Prop where
  len : known.length = bodies.length
  right : ∀ i, known[i]? = some true → Returns index external bodies i

/-- More is proved. -/
def Le (a b : List Bool) : Prop := ∀ i : Nat, a[i]? = some true → b[i]? = some true

theorem Le.refl (a : List Bool) : Le a a := fun _ h => h
theorem Le.trans {a b c : List Bool} (h : Le a b) (h' : Le b c) : Le a c := fun i hi => h' i (h i hi)

/-- The function can be proved from what is known. -/
def Ready (index : Nat → Option Nat) (external : Nat → Bool) (bodies : List (Option Body)) (known : List Bool) (i : Nat) : Prop :=
  bodies[i]? = some none ∨ ∃ f, bodies[i]? = some (some f) ∧ Acyclic f ∧ Direct f ∧
    ∀ k, Calls f k → calleeReturns index known external k = true

theorem Ready.returns (h : Right index external bodies known) {i : Nat} (hr : Ready index external bodies known i) :
    Returns index external bodies i := by
  rcases hr with hr | ⟨f, h1, h2, h3, h4⟩
  · exact .host hr
  · refine .script h1 h2 h3 ?_ ?_
    · intro k j hk hj
      have := h4 k hk
      unfold calleeReturns at this
      rw [hj] at this
      apply h.right j
      cases hg : known[j]? with
      | none => simp [hg] at this
      | some x => simp [hg] at this; rw [this]
    · intro k hk hj
      have := h4 k hk
      unfold calleeReturns at this
      rw [hj] at this
      exact this

/-- All bodies are bodies. -/
def Bodies (bodies : List (Option Body)) : Prop := ∀ f, some f ∈ bodies → InRange f ∧ f ≠ []

theorem visit_spec (hb : Bodies bodies) (h : Right index external bodies known) {i : Nat} (hi : i < bodies.length)
    (c : Bool) : ∃ s, visit index external bodies (known, c) i = some s ∧ Right index external bodies s.1 ∧ Le known s.1 ∧
      ((s = (known, c) ∧ (Ready index external bodies known i → known[i]? = some true)) ∨
        (s.2 = true ∧ known[i]? = some false ∧ s.1 = known.set i true)) := by
  have hk := List.getElem?_eq_getElem (l := known) (by rw [h.len]; exact hi)
  have hbi := List.getElem?_eq_getElem hi
  have hready : ∃ d, deriveBody index external known bodies[i] = some d ∧ (d = true ↔ Ready index external bodies known i) := by
    cases hbody : bodies[i] with
    | none => exact ⟨true, rfl, by simp [Ready, hbi, hbody]⟩
    | some f =>
      obtain ⟨h1, h2⟩ := hb f (by rw [← hbody]; exact List.getElem_mem _)
      obtain ⟨d, h3, h4⟩ := derive_spec (index := index) (external := external) (known := known) h1 h2
      refine ⟨d, h3, ?_⟩
      rw [h4]
      unfold Ready
      rw [hbi, hbody]
      simp
  unfold visit
  rw [hk, hbi]
  cases hv : known[i]'(by rw [h.len]; exact hi) with
  | true => exact ⟨_, rfl, h, Le.refl _, Or.inl ⟨rfl, fun _ => by simp⟩⟩
  | false =>
    obtain ⟨d, h1, h2⟩ := hready
    simp only []
    rw [h1]
    cases d with
    | false =>
      refine ⟨_, rfl, h, Le.refl _, Or.inl ⟨rfl, fun hr => ?_⟩⟩
      exact absurd (h2.2 hr) (by simp)
    | true =>
      refine ⟨_, rfl, ⟨by simpa using h.len, ?_⟩, ?_, Or.inr ⟨rfl, trivial, rfl⟩⟩
      · intro j hj
        simp only [if_true] at hj
        by_cases hij : i = j
        · subst hij; exact (h2.1 rfl).returns h
        · rw [List.getElem?_set_ne hij] at hj
          exact h.right j hj
      · intro j hj
        simp only [if_true]
        by_cases hij : i = j
        · subst hij
          rw [List.getElem?_set_self (by rw [h.len]; exact hi)]
        · rw [List.getElem?_set_ne hij]; exact hj

/-- The number of functions not proved yet. -/
def missing (known : List Bool) : Nat := known.count false

theorem missing_set {i : Nat} (h : known[i]? = some false) : missing (known.set i true) < missing known := by
  unfold missing
  obtain ⟨hi, he⟩ := List.getElem?_eq_some_iff.1 h
  have := List.count_set (a := true) (b := false) hi
  rw [this, he, if_pos (by decide), if_neg (by decide)]
  have : 0 < known.count false := List.count_pos_iff.2 (by rw [← he]; exact List.getElem_mem _)
  omega

theorem visits_spec (hb : Bodies bodies) : ∀ (l : List Nat) (known : List Bool) (c : Bool), (∀ i ∈ l, i < bodies.length) →
    Right index external bodies known →
    ∃ s, l.foldlM (visit index external bodies) (known, c) = some s ∧ Right index external bodies s.1 ∧ Le known s.1 ∧
      ((s = (known, c) ∧ ∀ i ∈ l, Ready index external bodies known i → known[i]? = some true) ∨
        (s.2 = true ∧ missing s.1 < missing known))
  | [], known, c, _, h => ⟨_, rfl, h, Le.refl _, Or.inl ⟨rfl, by simp⟩⟩
  | i :: l, known, c, hl, h => by
    obtain ⟨s, h1, h2, h3, h4⟩ := visit_spec hb h (hl i (by simp)) c
    rw [List.foldlM_cons, h1]
    obtain ⟨s', k1, k2, k3, k4⟩ := visits_spec hb l s.1 s.2 (fun j hj => hl j (by simp [hj])) h2
    refine ⟨s', k1, k2, h3.trans k3, ?_⟩
    rcases h4 with ⟨rfl, h4⟩ | ⟨h4, h5, h6⟩
    · rcases k4 with ⟨k4, k5⟩ | k4
      · refine Or.inl ⟨k4, ?_⟩
        intro j hj
        rcases List.mem_cons.1 hj with rfl | hj
        · exact h4
        · exact k5 j hj
      · exact Or.inr k4
    · have hlt : missing s.1 < missing known := by rw [h6]; exact missing_set h5
      rcases k4 with ⟨k4, k5⟩ | ⟨k4, k5⟩
      · exact Or.inr ⟨by rw [k4]; exact h4, by rw [k4]; exact hlt⟩
      · exact Or.inr ⟨k4, lt_trans k5 hlt⟩

theorem componentLoop_spec (hb : Bodies bodies) {component : List Nat} (hc : ∀ i ∈ component, i < bodies.length) :
    ∀ (n : Nat) (known : List Bool), missing known = n → Right index external bodies known →
    ∃ known', componentLoop index external bodies component known = some known' ∧ Right index external bodies known' ∧
      Le known known' ∧ ∀ i ∈ component, Ready index external bodies known' i → known'[i]? = some true := by
  intro n
  induction n using Nat.strong_induction_on with
  | _ n ih =>
  intro known hn h
  by_cases hlen : component.length = 1
  · obtain ⟨i, rfl⟩ := List.length_eq_one_iff.1 hlen
    have hi := hc i (by simp)
    obtain ⟨s, h1, h2, h3, h4⟩ := visit_spec hb h hi false
    have hfold : [i].foldlM (visit index external bodies) (known, false) = some s := by
      rw [List.foldlM_cons, h1]; rfl
    refine ⟨s.1, ?_, h2, h3, ?_⟩
    · unfold componentLoop
      rw [hfold]
      simp
    · intro j hj
      rw [List.mem_singleton] at hj
      subst hj
      rcases h4 with ⟨rfl, h4⟩ | ⟨_, _, h6⟩
      · exact h4
      · intro _
        rw [h6, List.getElem?_set_self (by rw [h.len]; exact hi)]
  · obtain ⟨s, h1, h2, h3, h4⟩ := visits_spec hb component known false hc h
    rcases h4 with ⟨rfl, h4⟩ | ⟨h4, h5⟩
    · refine ⟨known, ?_, h2, h3, h4⟩
      unfold componentLoop
      rw [h1]
      simp
    · obtain ⟨known', k1, k2, k3, k4⟩ := ih _ (by rw [← hn]; exact h5) s.1 rfl h2
      refine ⟨known', ?_, k2, h3.trans k3, k4⟩
      unfold componentLoop
      rw [h1]
      simp only [Option.bind_eq_bind, Option.bind_some]
      rw [if_neg (by simp [h4, hlen])]
      exact k1

/-! ### The call graph -/

theorem mem_record {index : Nat → Option Nat} : ∀ (vs : List Value) (acc : List Nat) (i : Nat),
    i ∈ vs.foldl (record index) acc ↔ i ∈ acc ∨ ∃ k, Value.function k ∈ vs ∧ index k = some i
  | [], acc, i => by simp
  | v :: vs, acc, i => by
    rw [List.foldl_cons, mem_record vs]
    have : i ∈ record index acc v ↔ i ∈ acc ∨ ∃ k, v = .function k ∧ index k = some i := by
      unfold record
      cases v with
      | function k =>
        simp only []
        cases hk : index k with
        | none => simp [hk]
        | some j =>
          simp only []
          split
          · rename_i hj
            constructor
            · exact Or.inl
            · rintro (h | ⟨k', h1, h2⟩)
              · exact h
              · cases h1; rw [hk] at h2; cases h2; exact hj
          · constructor
            · intro h
              rcases List.mem_append.1 h with h | h
              · exact Or.inl h
              · rw [List.mem_singleton] at h; subst h; exact Or.inr ⟨k, rfl, hk⟩
            · rintro (h | ⟨k', h1, h2⟩)
              · simp [h]
              · cases h1; rw [hk] at h2; cases h2; simp
      | _ => simp
    rw [this]
    constructor
    · rintro ((h | ⟨k, h1, h2⟩) | ⟨k, h1, h2⟩)
      · exact Or.inl h
      · exact Or.inr ⟨k, by simp [h1], h2⟩
      · exact Or.inr ⟨k, by simp [h1], h2⟩
    · rintro (h | ⟨k, h1, h2⟩)
      · exact Or.inl (Or.inl h)
      · rcases List.mem_cons.1 h1 with h1 | h1
        · exact Or.inl (Or.inr ⟨k, h1.symm, h2⟩)
        · exact Or.inr ⟨k, h1, h2⟩

theorem mem_calleesWithin {i : Nat} : i ∈ calleesWithin index f ↔
    ∃ k, (∃ blk ∈ f, ∃ op ∈ blockOps blk, Value.function k ∈ op.operands) ∧ index k = some i := by
  unfold calleesWithin
  rw [mem_record]
  simp only [List.not_mem_nil, false_or, List.mem_flatMap]
  constructor
  · rintro ⟨k, ⟨op, ⟨blk, h1, h2⟩, h3⟩, h4⟩
    exact ⟨k, ⟨blk, h1, op, h2, h3⟩, h4⟩
  · rintro ⟨k, ⟨blk, h1, op, h2, h3⟩, h4⟩
    exact ⟨k, ⟨op, ⟨blk, h1, h2⟩, h3⟩, h4⟩

theorem callGraph_wf (hidx : ∀ k i, index k = some i → i < bodies.length) : Graph.WF (callGraph index bodies) := by
  rintro u v ⟨l, hl, hv⟩
  unfold callGraph at hl
  obtain ⟨body, hb, rfl⟩ := List.mem_map.1 (List.mem_of_getElem? hl)
  cases body with
  | none => simp at hv
  | some f =>
    obtain ⟨k, _, hk⟩ := mem_calleesWithin.1 hv
    simpa [callGraph] using hidx k v hk

theorem calls_edge {i j k : Nat} (hi : bodies[i]? = some (some f)) (hc : Calls f k) (hk : index k = some j) :
    Graph.Edge (callGraph index bodies) i j := by
  obtain ⟨b, blk, op, _, hblk, hop, hcal⟩ := hc
  refine ⟨calleesWithin index f, ?_, ?_⟩
  · unfold callGraph; rw [List.getElem?_map, hi]; rfl
  · refine mem_calleesWithin.2 ⟨k, ⟨blk, List.mem_of_getElem? hblk, op, hop, ?_⟩, hk⟩
    unfold calleeOperand at hcal
    split at hcal <;> first | (cases hcal; done) | exact List.mem_of_getElem? (Option.some.inj hcal)

theorem ofModule_spec (order : List Nat → List Nat) (horder : ∀ l, (order l).Perm l)
    (hidx : ∀ k i, index k = some i → i < bodies.length) (hb : Bodies bodies) :
    ∃ known, ofModule order index external bodies = some known ∧ known.length = bodies.length ∧
      ∀ i, known[i]? = some true ↔ Returns index external bodies i := by
  obtain ⟨comps, h1, h2, h3, h4⟩ := Graph.C23_callees_first _ (callGraph_wf hidx) order horder
  have hlt : ∀ c ∈ comps, ∀ i ∈ c, i < bodies.length := by
    intro c hc i hi
    have : i ∈ List.range (callGraph index bodies).length := h2.subset (List.mem_flatten.2 ⟨c, hc, hi⟩)
    simpa [callGraph] using this
  have key : ∀ (rest A : List (List Nat)) (known : List Bool), comps = A ++ rest → Right index external bodies known →
      (∀ i ∈ A.flatten, Returns index external bodies i → known[i]? = some true) →
      ∃ known', rest.foldlM (fun known component => componentLoop index external bodies component known) known = some known' ∧
        Right index external bodies known' ∧ ∀ i ∈ comps.flatten, Returns index external bodies i → known'[i]? = some true := by
    intro rest
    induction rest with
    | nil =>
      intro A known hA hr hcomp
      exact ⟨known, rfl, hr, by rw [hA, List.append_nil]; exact hcomp⟩
    | cons c rest ih =>
      intro A known hA hr hcomp
      have hcm : c ∈ comps := by rw [hA]; simp
      obtain ⟨known', k1, k2, k3, k4⟩ := componentLoop_spec hb (hlt c hcm) _ known rfl hr
      rw [List.foldlM_cons, k1]
      refine ih (A ++ [c]) known' (by simp [hA]) k2 ?_
      have hc' : ∀ i, Returns index external bodies i → i ∈ c → known'[i]? = some true := by
        intro i hret
        induction hret with
        | host h => intro hi; exact k4 _ hi (Or.inl h)
        | @script i f hf hac hdir hcall hext ihc =>
          intro hi
          refine k4 i hi (Or.inr ⟨f, hf, hac, hdir, ?_⟩)
          intro k hk
          unfold calleeReturns
          cases hj : index k with
          | none => exact hext k hk hj
          | some j =>
            have : known'[j]? = some true := by
              rcases h4 A c rest hA i hi j (Graph.reach_edge (calls_edge hf hk hj)) with h | h
              · exact ihc k j hk hj h
              · exact k3 j (hcomp j h (hcall k j hk hj))
            simp only [this]; rfl
      intro i hi hret
      rw [List.flatten_append, List.mem_append] at hi
      rcases hi with hi | hi
      · exact k3 i (hcomp i hi hret)
      · exact hc' i hret (by simpa using hi)
  obtain ⟨known, k1, k2, k3⟩ := key comps [] (List.replicate bodies.length false) rfl
    ⟨by simp, by intro i hi; rw [List.getElem?_replicate] at hi; split at hi <;> cases hi⟩ (by simp)
  refine ⟨known, by unfold ofModule; rw [h1]; exact k1, k2.len, fun i => ⟨k2.right i, fun h => k3 i ?_ h⟩⟩
  apply h2.symm.subset
  rw [List.mem_range]
  have : i < bodies.length := by
    cases h with
    | host h => exact (List.getElem?_eq_some_iff.1 h).1
    | script h => exact (List.getElem?_eq_some_iff.1 h).1
  simpa [callGraph] using this

/-! ### Executions -/

/-- The bodies of all functions: those of the module and those of the others. -/
def program (index : Nat → Option Nat) (others : Nat → Option Body) (bodies : List (Option Body)) (k : Nat) : Option Body :=
  match index k with
  | some i => (bodies[i]?).join
  | none => others k

theorem returns_halts {others : Nat → Option Body} (hb : Bodies bodies)
    (hext : ∀ k, index k = none → external k = true → Halts (program index others bodies) (startOf (program index others bodies) k))
    {i : Nat} (h : Returns index external bodies i) :
    ∀ k, index k = some i → Halts (program index others bodies) (startOf (program index others bodies) k) := by
  induction h with
  | host h =>
    intro k hk
    have : startOf (program index others bodies) k = [] := by
      unfold startOf program; rw [hk]; simp [h]
    rw [this]
    exact halts_nil
  | @script i f hf hac hdir hcall he ih =>
    intro k hk
    obtain ⟨hr, hne⟩ := hb f (List.mem_of_getElem? hf)
    have hp : program index others bodies k = some f := by unfold program; rw [hk]; simp [hf]
    have h0 : f[0]? = some (f[0]'(List.length_pos_iff.2 hne)) := List.getElem?_eq_getElem _
    have hs : startOf (program index others bodies) k = [⟨f, (f[0]'(List.length_pos_iff.2 hne)).ops, (f[0]'(List.length_pos_iff.2 hne)).term⟩] := by
      unfold startOf
      rw [hp, Option.bind_some]
      unfold Frame.at?
      rw [h0]
      rfl
    rw [hs]
    refine halts_body hr hne ⟨hac, ?_⟩ (by unfold Frame.at?; rw [h0]; rfl)
    intro b blk hb' hblk op hop
    obtain ⟨h1, h2⟩ := (hdir b blk hb' hblk).1 op hop
    refine ⟨h1, ?_⟩
    rintro k' (hrun | ⟨v, hv, hk'⟩)
    · exact absurd hrun h1
    · obtain ⟨j, rfl⟩ := h2 v hv
      have := hk' j rfl
      subst this
      have hcalls : Calls f k' := ⟨b, blk, op, hb', hblk, hop, hv⟩
      cases hi : index k' with
      | none => exact hext k' hi (he k' hcalls hi)
      | some j => exact ih k' j hcalls hi k' hi

end Ferlium.WillReturn
