import Verif.Proofs.Negation

/-! The walk back from a condition to the boolean it is computed from. -/
namespace Ferlium.Negation

open Ferlium.Mir
open Ferlium.Peephole (boolValue boolValue_plain)
open Ferlium.Dominance Ferlium.Edit

variable {V σ : Type} {W : World V σ} {f g : Body} {dom : Dom}

/-- Further rules of well-formed MIR: stores have no result, the shapes of loads and comparisons, every use of a register
is dominated by its definition, all blocks are reachable. -/
structure Scoped (f : Body) : Prop where
  noResult : ∀ b ∈ f, ∀ op ∈ b.ops, op.kind = .store → op.result = none
  loads : ∀ b ∈ f, ∀ op ∈ b.ops, op.kind = .load → ∃ v, op.operands = [v]
  patterns : ∀ b ∈ f, ∀ op ∈ b.ops, op.kind = .compareEqual → ∃ v l, op.operands = [v, .pattern l]
  ops : ∀ p op r, opAt f p = some op → Value.register r ∈ op.operands →
    ∀ d op', opAt f d = some op' → op'.result = some r → Before f d p
  terms : ∀ (b : Nat) (blk : Block) (r : Nat), f[b]? = some blk → Value.register r ∈ blk.term.operands →
    ∀ d op', opAt f d = some op' → op'.result = some r → Before f d ⟨b, blk.ops.length⟩
  reachable : AllReachable f

/-- No place which was itself loaded from storage is read by a load: what a load reads is a local, a parameter or a
projection. -/
def NoLoadedPlaces (f : Body) : Prop :=
  ∀ b ∈ f, ∀ op ∈ b.ops, op.kind = .load → ∀ r, op.operands = [.register r] → ¬ Mat f r

/-- Reading the operand `v` at the site `d` gives the value of the register `n`. -/
def Reads (f : Body) (v : Value) (d : Site) (n : Nat) : Prop :=
  (v = .register n ∧ ¬ IsAlloca f n) ∨ ∃ c store, v = .register c ∧ Cell f c n store ∧ Before f store d

/-- The register `y` is computed from `n`: it is a copy, or the comparison of it with `pattern`. -/
def Arrow (f : Body) (y n : Nat) (pattern : Bool) : Prop :=
  ∃ d op, opAt f d = some op ∧ op.result = some y ∧ ∃ v, Reads f v d n ∧
    ((op.kind = .load ∧ op.operands = [v] ∧ pattern = true) ∨
     (op.kind = .compareEqual ∧ ∃ l, op.operands = [v, l] ∧ boolValue l = some pattern))

/-- What the dominator tree answers. -/
def DomOk (f : Body) (dom : Dom) : Prop := ∀ d u, d < f.length → u < f.length →
  ∃ r, dom.dominates d u = some r ∧ (r = true ↔ Reachable f u ∧ Dominates (graphOf f) 0 d u)

theorem opAt_lt {d : Site} {op : Op} (h : opAt f d = some op) : d.block < f.length := by
  obtain ⟨blk, h1, _⟩ := opAt_some.1 h
  exact (List.getElem?_eq_some_iff.1 h1).1

theorem dominates_spec (hd : DomOk f dom) (hr : AllReachable f) {store site : Site} (h1 : store.block < f.length)
    (h2 : site.block < f.length) : ∃ b, dominates dom store site = some b ∧ (b = true ↔ Before f store site) := by
  unfold dominates
  split
  · rename_i he
    refine ⟨_, rfl, ?_⟩
    rw [decide_eq_true_iff]
    unfold Before
    simp [he]
  · rename_i he
    obtain ⟨r, h3, h4⟩ := hd _ _ h1 h2
    refine ⟨r, h3, h4.trans ?_⟩
    unfold Before Dominates
    simp [he, hr _ h2]

theorem read_spec (hd : DomOk f dom) (hr : AllReachable f) {v : Value} {site : Site} (hs : site.block < f.length) :
    ∃ o, read f dom v site = some o ∧ ∀ n, o = some n → Reads f v site n := by
  unfold read
  cases v with
  | register r =>
    simp only [asRegister]
    split
    · rename_i hl
      split
      · exact ⟨none, rfl, by simp⟩
      · rename_i stored store hf
        have hc := forwardable_cell (isLocal_iff.1 hl) hf
        obtain ⟨op, hop, _⟩ := hc.write
        obtain ⟨b, h1, h2⟩ := dominates_spec hd hr (opAt_lt hop) hs
        refine ⟨_, by rw [h1]; rfl, ?_⟩
        intro n hn
        cases b
        · simp at hn
        · simp only [if_true, Option.some.injEq] at hn
          subst hn
          exact Or.inr ⟨r, store, rfl, hc, h2.1 rfl⟩
    · rename_i hl
      refine ⟨_, rfl, ?_⟩
      intro n hn
      cases hn
      exact Or.inl ⟨rfl, fun ha => hl (isLocal_iff.2 ha)⟩
  | _ => exact ⟨none, rfl, by simp⟩

theorem stepBack_spec (hd : DomOk f dom) (hsc : Scoped f) (x : Source) :
    ∃ o, stepBack f dom x = some o ∧ ∀ n, o = some n → ∃ p, Arrow f x.value n.value p ∧ n.negated = (x.negated != !p) := by
  unfold stepBack
  cases hdef : definition f x.value with
  | none => exact ⟨none, rfl, by simp⟩
  | some q =>
    obtain ⟨op, d⟩ := q
    obtain ⟨hop, hres⟩ := definition_some hdef
    obtain ⟨b, hb, hm⟩ := opAt_mem hop
    simp only []
    split
    · rename_i hk
      obtain ⟨v, hv⟩ := hsc.loads b hb op hm hk
      obtain ⟨o, h1, h2⟩ := read_spec hd hsc.reachable (v := v) (opAt_lt hop)
      rw [hv]
      refine ⟨_, by simp only [List.getElem?_cons_zero]; rw [h1]; rfl, ?_⟩
      intro n hn
      rw [Option.map_eq_some_iff] at hn
      obtain ⟨r, rfl, rfl⟩ := hn
      exact ⟨true, ⟨d, op, hop, hres, v, h2 r rfl, Or.inl ⟨hk, hv, rfl⟩⟩, by simp⟩
    · rename_i hk
      obtain ⟨v, l, hv⟩ := hsc.patterns b hb op hm hk
      obtain ⟨o, h1, h2⟩ := read_spec hd hsc.reachable (v := v) (opAt_lt hop)
      rw [hv]
      simp only [List.getElem?_cons_zero, List.getElem?_cons_succ]
      cases hl : boolValue (.pattern l) with
      | none => exact ⟨none, rfl, by simp⟩
      | some p =>
        refine ⟨_, by simp only []; rw [h1]; rfl, ?_⟩
        intro n hn
        rw [Option.map_eq_some_iff] at hn
        obtain ⟨r, rfl, rfl⟩ := hn
        exact ⟨p, ⟨d, op, hop, hres, v, h2 r rfl, Or.inr ⟨hk, _, hv, hl⟩⟩, rfl⟩
    · exact ⟨none, rfl, by simp⟩

theorem reads_before (hsc : Scoped f) {v : Value} {p d : Site} {op op' : Op} {n : Nat} (hop : opAt f p = some op)
    (hv : v ∈ op.operands) (h : Reads f v p n) (hd : opAt f d = some op') (hres : op'.result = some n) : Before f d p := by
  rcases h with ⟨rfl, _⟩ | ⟨c, store, rfl, hc, hb⟩
  · exact hsc.ops p op n hop hv d op' hd hres
  · obtain ⟨w, h1, h2, h3, h4⟩ := hc.write
    exact before_trans hsc.reachable (opAt_lt hop)
      (hsc.ops store w n h1 (List.mem_of_getElem? h3) d op' hd hres) hb

/-- What a register is computed from is defined earlier. -/
theorem arrow_before (hs : SingleAssignment f) (hsc : Scoped f) {y n : Nat} {p : Bool} (h : Arrow f y n p) {d d' : Site}
    {op op' : Op} (hy : opAt f d = some op) (hy' : op.result = some y) (hn : opAt f d' = some op')
    (hn' : op'.result = some n) : Before f d' d := by
  obtain ⟨d1, op1, h1, h2, v, h3, h4⟩ := h
  obtain ⟨rfl, rfl⟩ := site_unique hs hy h1 hy' h2
  refine reads_before hsc h1 ?_ h3 hn hn'
  rcases h4 with ⟨_, h4, _⟩ | ⟨_, l, h4, _⟩ <;> rw [h4] <;> simp

/-- The registers defined before a register. -/
noncomputable def earlier (f : Body) (r : Nat) : Finset Nat :=
  open Classical in
  (results f).toFinset.filter fun q => ∃ d op d' op', opAt f d = some op ∧ op.result = some q ∧ opAt f d' = some op' ∧
    op'.result = some r ∧ Before f d d'

theorem mem_results {d : Site} {op : Op} {r : Nat} (h : opAt f d = some op) (hr : op.result = some r) : r ∈ results f := by
  obtain ⟨b, hb, hop⟩ := opAt_mem h
  unfold results Block.results
  rw [List.mem_flatMap]
  exact ⟨b, hb, List.mem_filterMap.2 ⟨op, hop, hr⟩⟩

open Classical in
theorem earlier_lt (hs : SingleAssignment f) (hsc : Scoped f) {y n : Nat} {p : Bool} (h : Arrow f y n p) {d : Site}
    {op : Op} (hn : opAt f d = some op) (hn' : op.result = some n) : (earlier f n).card < (earlier f y).card := by
  have h' := h
  obtain ⟨dy, opy, hy, hy', -⟩ := h'
  have hb := arrow_before hs hsc h hy hy' hn hn'
  apply Finset.card_lt_card
  rw [Finset.ssubset_iff_of_subset]
  · refine ⟨n, ?_, ?_⟩
    · unfold earlier
      rw [Finset.mem_filter, List.mem_toFinset]
      exact ⟨mem_results hn hn', d, op, dy, opy, hn, hn', hy, hy', hb⟩
    · unfold earlier
      rw [Finset.mem_filter]
      rintro ⟨_, d1, op1, d2, op2, h1, h2, h3, h4, h5⟩
      obtain ⟨rfl, rfl⟩ := site_unique hs h1 hn h2 hn'
      obtain ⟨rfl, rfl⟩ := site_unique hs h1 h3 h2 h4
      exact before_irrefl _ h5
  · intro q hq
    unfold earlier at hq ⊢
    rw [Finset.mem_filter] at hq ⊢
    obtain ⟨h0, d1, op1, d2, op2, h1, h2, h3, h4, h5⟩ := hq
    obtain ⟨rfl, rfl⟩ := site_unique hs hn h3 hn' h4
    exact ⟨h0, d1, op1, dy, opy, h1, h2, hy, hy', before_trans hsc.reachable (opAt_lt hy) h5 hb⟩

/-- The registers a walk passes through, with the parity of the negations: all of them results of loads and
comparisons. -/
inductive Chain (f : Body) : Source → Source → Prop
  | refl {x : Source} : Chain f x x
  | step {x y n : Source} {p : Bool} : Chain f x y → Arrow f y.value n.value p → Mat f n.value →
      n.negated = (y.negated != !p) → Chain f x n

theorem arrow_mat {y n : Nat} {p : Bool} (h : Arrow f y n p) : Mat f y := by
  obtain ⟨d, op, h1, h2, v, _, h4⟩ := h
  refine ⟨d, op, h1, h2, ?_⟩
  rcases h4 with ⟨h4, _⟩ | ⟨h4, _⟩ <;> rw [h4] <;> rfl

theorem walk_spec (hd : DomOk f dom) (hs : SingleAssignment f) (hsc : Scoped f) (x : Source) :
    ∀ (current : Source) (resolved : Option Source),
      (Mat f current.value → Chain f x current) → (∀ r, resolved = some r → Mat f r.value ∧ Chain f x r) →
      ∃ o, walk f dom current resolved = some o ∧ ∀ r, o = some r → Mat f r.value ∧ Chain f x r := by
  intro current
  induction hn : (earlier f current.value).card using Nat.strong_induction_on generalizing current with
  | _ k ih =>
    intro resolved hc hres
    unfold walk
    obtain ⟨o, h1, h2⟩ := stepBack_spec hd hsc current
    rw [h1]
    cases o with
    | none => exact ⟨resolved, rfl, hres⟩
    | some next =>
      obtain ⟨p, ha, hneg⟩ := h2 next rfl
      have hch : Mat f next.value → Chain f x next := fun hm => .step (hc (arrow_mat ha)) ha hm hneg
      change ∃ o, walk f dom next _ = some o ∧ _
      have hres' : ∀ r, (if isMaterialized f next.value then some next else resolved) = some r →
          Mat f r.value ∧ Chain f x r := by
        intro r hr
        split at hr
        · rename_i hm
          cases hr
          exact ⟨(isMaterialized_iff hs).1 hm, hch ((isMaterialized_iff hs).1 hm)⟩
        · exact hres r hr
      cases hdef : definition f next.value with
      | none =>
        refine ⟨(if isMaterialized f next.value then some next else resolved), ?_, hres'⟩
        unfold walk
        have : stepBack f dom next = some none := by unfold stepBack; rw [hdef]
        rw [this]
        rfl
      | some q =>
        obtain ⟨h3, h4⟩ := definition_some hdef
        exact ih _ (by rw [← hn]; exact earlier_lt hs hsc ha h3 h4) next rfl _ hch hres'

end Ferlium.Negation
