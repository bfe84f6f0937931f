import Verif.Proofs.NegationSim

/-! The invariant of executions behind the removal of negations. -/
namespace Ferlium.Negation

open Ferlium.Mir
open Ferlium.Peephole (boolValue boolValue_plain)
open Ferlium.Dominance Ferlium.Edit

variable {V σ : Type} {W : World V σ} {f g : Body} {dom : Dom} {s s1 : St V σ}

/-- What registers are bound to: results of loads and comparisons to values, the cells in question to cells. -/
def Shape (f : Body) (r : Nat) (b : Option (Bind V)) : Prop :=
  (Mat f r → b = none ∨ ∃ v, b = some (.value v false)) ∧
  ((∃ x S, Cell f r x S) → b = none ∨ ∃ c, b = some (.cell c))

theorem opAt_of_mem {b : Block} (hb : b ∈ f) {op : Op} (hop : op ∈ b.ops) : ∃ d, opAt f d = some op := by
  obtain ⟨i, hi⟩ := List.getElem?_of_mem hb
  obtain ⟨j, hj⟩ := List.getElem?_of_mem hop
  exact ⟨⟨i, j⟩, opAt_some.2 ⟨b, hi, hj⟩⟩

theorem mat_op (hs : SingleAssignment f) {r : Nat} (h : Mat f r) {b : Block} (hb : b ∈ f) {op : Op} (hop : op ∈ b.ops)
    (hr : op.result = some r) : makesBool op.kind = true := by
  obtain ⟨d, op', h1, h2, h3⟩ := h
  obtain ⟨d', h4⟩ := opAt_of_mem hb hop
  obtain ⟨_, rfl⟩ := site_unique hs h1 h4 h2 hr
  exact h3

theorem makesBool_iff {k : Kind} : makesBool k = true ↔ k = .load ∨ k = .compareEqual := by
  cases k <;> simp [makesBool]

/-- Where a cell is read. -/
theorem read_shape (hsc : Scoped f) {b : Block} (hb : b ∈ f) {op : Op} (hop : op ∈ b.ops) {c i : Nat}
    (hi : op.operands[i]? = some (.register c)) (hk : makesBool op.kind = true) :
    i = 0 ∧ (op.operands = [.register c] ∨ ∃ l, op.operands = [.register c, .pattern l]) := by
  rcases makesBool_iff.1 hk with hk | hk
  · obtain ⟨v, hv⟩ := hsc.loads b hb op hop hk
    rw [hv] at hi ⊢
    cases i with
    | zero => simp at hi; simp [hi]
    | succ i => simp at hi
  · obtain ⟨v, l, hv⟩ := hsc.patterns b hb op hop hk
    rw [hv] at hi ⊢
    cases i with
    | zero => simp at hi; simp [hi]
    | succ i => cases i <;> simp at hi

theorem shape_keeps (hv : Valid f) (hsc : Scoped f) : BodyKeeps (V := V) (Shape f) f := by
  have key : ∀ {direct : Nat → Bool} {op : Op},
      (∀ r, op.result = some r → ∃ b ∈ f, op ∈ b.ops) →
      (∀ i r x S, Cell f r x S → op.operands[i]? = some (.register r) → direct i = true) →
      Keeps (V := V) (Shape f) direct op := by
    intro direct op ho hd
    refine ⟨fun r => ⟨fun _ => Or.inl rfl, fun _ => Or.inl rfl⟩, ?_, ?_, ?_, ?_⟩
    · intro r c c' h
      refine ⟨fun hm => ?_, fun _ => Or.inr ⟨_, rfl⟩⟩
      rcases h.1 hm with h | ⟨v, h⟩ <;> cases h
    · intro i r c v hi hdi _
      refine ⟨fun _ => Or.inr ⟨_, rfl⟩, ?_⟩
      rintro ⟨x, S, hc⟩
      rw [hd i r x S hc hi] at hdi
      cases hdi
    · intro r v hr hk
      obtain ⟨b, hb, hop⟩ := ho r hr
      refine ⟨fun hm => ?_, ?_⟩
      · have h1 := mat_op hv.single hm hb hop hr
        have : op.owned = false := by
          rcases makesBool_iff.1 h1 with h1 | h1 <;> simp [Op.owned, h1]
        rw [this]
        exact Or.inr ⟨_, rfl⟩
      · rintro ⟨x, S, hc⟩
        obtain ⟨ty, h⟩ := BranchForward.alloca_unique hv hc.alloca hb hop hr
        exact absurd h (hk ty)
    · intro r ty hr hk
      obtain ⟨b, hb, hop⟩ := ho r hr
      refine ⟨fun hm => ?_, fun _ => Or.inr ⟨_, rfl⟩⟩
      have h1 := mat_op hv.single hm hb hop hr
      rw [hk] at h1
      cases h1
  refine ⟨?_, ?_, ?_⟩
  · intro b hb op hop
    refine key (fun _ _ => ⟨b, hb, hop⟩) ?_
    intro i r x S hc hi
    obtain ⟨d, hd⟩ := opAt_of_mem hb hop
    rcases hc.ops d op i hd hi with ⟨hk, rfl, _⟩ | ⟨hk, rfl⟩
    · simp [Op.direct, Op.writeIndex, hk]
    · rcases makesBool_iff.1 hk with hk | hk <;> simp [Op.direct, Op.readsWhole, hk]
  · intro b hb op n e ht
    refine key ?_ ?_
    · intro r hr
      rw [hv.single.2 b hb op n e ht] at hr
      cases hr
    · intro i r x S hc hi
      exact absurd (by rw [ht]; exact List.mem_of_getElem? hi) (hc.terms b hb)
  · intro b hb r k ht c w h
    refine ⟨fun _ => Or.inr ⟨_, rfl⟩, ?_⟩
    rintro ⟨x, S, hc⟩
    exact absurd (by rw [ht]; simp [Term.operands]) (hc.terms b hb)

/-- How the value of a register relates to the one it is computed from. -/
def Made (W : World V σ) (s : St V σ) (y n : Nat) (pattern : Bool) : Prop :=
  ∃ v v', s.env y = some (.value v false) ∧ s.env n = some (.value v' false) ∧
    ((v = v' ∧ pattern = true) ∨ ∃ b, v' = W.bool b ∧ v = W.bool (b == pattern))

/-- The invariant at a point: cells which have been written hold what was written, and computed registers are related to
what they are computed from. -/
structure Inv (W : World V σ) (f : Body) (p : Site) (s : St V σ) : Prop where
  held : ∀ c x S, Cell f c x S → Mat f x → Before f S p →
    ∃ v, s.env c = some (.cell (some v)) ∧ s.env x = some (.value v false)
  made : ∀ y n pt d op, Arrow f y n pt → Mat f n → opAt f d = some op → op.result = some y → Before f d p →
    Made W s y n pt

/-- At comparisons with boolean literals, what is compared is a boolean. -/
def ComparesBools (W : World V σ) (f : Body) (w : σ) : Prop :=
  ∀ n op ops t s r l, run W f n (start f w) = .at (op :: ops) t s → op.kind = .compareEqual →
    op.operands = [.register r, l] → (boolValue l).isSome →
    (Mat f r → ∀ x o, s.env r = some (.value x o) → (W.asBool x).isSome) ∧
    (∀ x, s.env r = some (.cell (some x)) → (W.asBool x).isSome)

/-- The hypothesis on one operation. -/
def BoolsAt (W : World V σ) (f : Body) (op : Op) (s : St V σ) : Prop :=
  ∀ r l, op.kind = .compareEqual → op.operands = [.register r, l] → (boolValue l).isSome →
    (Mat f r → ∀ x o, s.env r = some (.value x o) → (W.asBool x).isSome) ∧
    (∀ x, s.env r = some (.cell (some x)) → (W.asBool x).isSome)

theorem made_frame {y n : Nat} {pt : Bool} (h : Made W s y n pt)
    (hf : ∀ q x, (q = y ∨ q = n) → s.env q = some (.value x false) → s1.env q = some (.value x false)) :
    Made W s1 y n pt := by
  obtain ⟨v, v', h1, h2, h3⟩ := h
  exact ⟨v, v', hf _ _ (Or.inl rfl) h1, hf _ _ (Or.inr rfl) h2, h3⟩

theorem bool_of_isSome {x : V} (h : (W.asBool x).isSome) : ∃ b, x = W.bool b := by
  obtain ⟨b, hb⟩ := Option.isSome_iff_exists.1 h
  exact ⟨b, W.bool_of_asBool x b hb⟩

theorem compareWith_bool {y : Nat} {b pt : Bool} :
    compareWith W (some y) (W.bool b) pt s = .ok (s.set y (some (.value (W.bool (b == pt)) false))) := by
  unfold compareWith
  rw [W.compare_bool]
  rfl

theorem set_other {q y : Nat} {b : Option (Bind V)} (h : q ≠ y) : (s.set y b).env q = s.env q :=
  Function.update_of_ne h _ _

theorem set_self {y : Nat} {b : Option (Bind V)} : (s.set y b).env y = b := by simp [St.set]

/-- The invariant after the operation which computes a register. -/
theorem made_now (hs : SingleAssignment f) (hsc : Scoped f) (hn : NoLoadedPlaces f) {d : Site} {op : Op} (hop : opAt f d = some op) {y n : Nat} {pt : Bool} (ha : Arrow f y n pt)
    (hm : Mat f n) (hr : op.result = some y) (hI : Inv W f d s) (hsh : AllBind (Shape f) s) (hB : BoolsAt W f op s)
    (he : execOp W op.direct op s = .ok s1) : Made W s1 y n pt := by
  have hne : n ≠ y := by
    rintro rfl
    exact before_irrefl d (arrow_before hs hsc ha hop hr hop hr)
  obtain ⟨d', op', h1, h2, v, h3, h4⟩ := ha
  obtain ⟨rfl, rfl⟩ := site_unique hs hop h1 hr h2
  obtain ⟨b, hb, hmem⟩ := opAt_mem hop
  rcases h4 with ⟨hk, ho, rfl⟩ | ⟨hk, l, ho, hl⟩
  · rcases h3 with ⟨rfl, _⟩ | ⟨c, S, rfl, hc, hbef⟩
    · exact absurd hm (hn b hb op hmem hk n ho)
    · obtain ⟨x, hx1, hx2⟩ := hI.held c n S hc hm hbef
      rw [load_cell hk ho hr hx1] at he
      cases he
      exact ⟨x, x, set_self, by rw [set_other hne]; exact hx2, Or.inl ⟨rfl, rfl⟩⟩
  · rcases h3 with ⟨rfl, _⟩ | ⟨c, S, rfl, hc, hbef⟩
    · rcases (hsh n).1 hm with hx | ⟨x, hx⟩
      · exfalso
        obtain ⟨v, l', ho'⟩ := hsc.patterns b hb op hmem hk
        rw [ho] at ho'
        unfold execOp at he
        have hex : exposeFrom W op.direct 0 op.operands s = s := by
          rw [ho]
          simp only [exposeFrom, Op.direct, Op.writeIndex, Op.readsWhole, hk]
          simp [plain_expose (boolValue_plain (W := W) hl s)]
        simp only [hex] at he
        rw [ho] at he
        simp [argsFrom, argOf, hx] at he
      · obtain ⟨b0, rfl⟩ := bool_of_isSome ((hB n l hk ho (by rw [hl]; rfl)).1 hm x false hx)
        rw [compare_exec (x := W.bool b0) hk ho hl (Or.inl (by simp [argOf, hx])), hr, compareWith_bool] at he
        cases he
        exact ⟨_, _, set_self, by rw [set_other hne]; exact hx, Or.inr ⟨b0, rfl, rfl⟩⟩
    · obtain ⟨x, hx1, hx2⟩ := hI.held c n S hc hm hbef
      obtain ⟨b0, rfl⟩ := bool_of_isSome ((hB c l hk ho (by rw [hl]; rfl)).2 x hx1)
      rw [compare_exec (x := W.bool b0) hk ho hl (Or.inr (by simp [argOf, hx1])), hr, compareWith_bool] at he
      cases he
      exact ⟨_, _, set_self, by rw [set_other hne]; exact hx2, Or.inr ⟨b0, rfl, rfl⟩⟩

theorem cell_defs (hsc : Scoped f) {c x : Nat} {S d : Site} {op : Op} (hc : Cell f c x S) (hd : opAt f d = some op)
    (hr : op.result = some c ∨ op.result = some x) : Before f d S := by
  obtain ⟨w, h1, h2, h3, h4⟩ := hc.write
  rcases hr with hr | hr
  · exact hsc.ops S w c h1 (List.mem_of_getElem? h4) d op hd hr
  · exact hsc.ops S w x h1 (List.mem_of_getElem? h3) d op hd hr

/-- The invariant after an operation. -/
theorem inv_op (hs : SingleAssignment f) (hsc : Scoped f) (hst : StoresValues f) (hn : NoLoadedPlaces f) {b i : Nat} {op : Op}
    (hop : opAt f ⟨b, i⟩ = some op) (hI : Inv W f ⟨b, i⟩ s) (hsh : AllBind (Shape f) s) (hB : BoolsAt W f op s)
    (he : execOp W op.direct op s = .ok s1) : Inv W f ⟨b, i + 1⟩ s1 := by
  have hlt := opAt_lt hop
  obtain ⟨blk, hblk, hmem⟩ := opAt_mem hop
  have hcont : (execOp W op.direct op s).Cont s1 := by rw [he]; rfl
  constructor
  · intro c x S hc hm hbef
    rcases before_op hbef with rfl | hbef
    · obtain ⟨w, h1, h2, h3, h4⟩ := hc.write
      rw [hop] at h1
      cases h1
      obtain ⟨v, p, ho, _⟩ := hst blk hblk op hmem h2
      rw [ho] at h3 h4
      simp at h3 h4
      subst h3 h4
      exact store_value h2 ho ((hsh x).1 hm) ((hsh c).2 ⟨_, _, hc⟩) he
    · obtain ⟨v, h1, h2⟩ := hI.held c x S hc hm hbef
      have hres : ∀ q, q = c ∨ q = x → op.result ≠ some q := by
        intro q hq hr
        have := cell_defs hsc hc hop (by rcases hq with rfl | rfl <;> simp [hr])
        exact before_irrefl _ (before_trans hsc.reachable hlt this hbef)
      refine ⟨v, ?_, execOp_value h2 (hres x (Or.inr rfl)) hcont⟩
      by_cases hu : Value.register c ∈ op.operands
      · obtain ⟨j, hj⟩ := List.getElem?_of_mem hu
        rcases hc.ops _ op j hop hj with ⟨_, _, rfl⟩ | ⟨hk, _⟩
        · exact absurd hbef (before_irrefl _)
        · exact read_keeps h1 (makesBool_iff.1 hk) (read_shape hsc hblk hmem hj hk).2 (hres c (Or.inl rfl)) he
      · rw [execOp_frame' hu (hres c (Or.inl rfl)) hcont]
        exact h1
  · intro y n pt d op' ha hm hd hr hbef
    rcases before_op hbef with rfl | hbef
    · rw [hop] at hd
      cases hd
      exact made_now hs hsc hn hop ha hm hr hI hsh hB he
    · refine made_frame (hI.made y n pt d op' ha hm hd hr hbef) ?_
      intro q x hq hx
      refine execOp_value hx ?_ hcont
      intro hres
      rcases hq with rfl | rfl
      · obtain ⟨rfl, rfl⟩ := site_unique hs hop hd hres hr
        exact before_irrefl _ hbef
      · exact before_irrefl _ (before_trans hsc.reachable hlt (arrow_before hs hsc ha hd hr hop hres) hbef)

/-- The invariant after a jump. -/
theorem inv_jump {b b' : Nat} {blk : Block} (hb : f[b]? = some blk) (ht : b' ∈ blk.term.successors)
    (hI : Inv W f ⟨b, blk.ops.length⟩ s)
    (hv : ∀ q x, s.env q = some (.value x false) → s1.env q = some (.value x false))
    (hc : ∀ c, Value.register c ∉ blk.term.operands → s1.env c = s.env c) : Inv W f ⟨b', 0⟩ s1 := by
  constructor
  · intro c x S hcell hm hbef
    obtain ⟨w, hw, _⟩ := hcell.write
    obtain ⟨v, h1, h2⟩ := hI.held c x S hcell hm (before_jump hw hb ht hbef)
    exact ⟨v, by rw [hc c (hcell.terms blk (List.mem_of_getElem? hb))]; exact h1, hv _ _ h2⟩
  · intro y n pt d op ha hm hd hr hbef
    exact made_frame (hI.made y n pt d op ha hm hd hr (before_jump hd hb ht hbef)) fun q x _ hx => hv q x hx

/-! ### Chains -/

/-- The values at the two ends of a walk. -/
def Linked (W : World V σ) (s : St V σ) (negated : Bool) (x n : Nat) : Prop :=
  ∃ v v', s.env x = some (.value v false) ∧ s.env n = some (.value v' false) ∧
    ((negated = false ∧ v = v') ∨ ∃ b, v = W.bool b ∧ v' = W.bool (b != negated))

theorem bool_inj {a b : Bool} (h : W.bool a = W.bool b) : a = b := by
  have h1 := W.asBool_bool a
  rw [h, W.asBool_bool] at h1
  exact (Option.some.inj h1).symm

theorem chain_linked (hs : SingleAssignment f) (hsc : Scoped f) {p : Site} (hp : p.block < f.length) (hI : Inv W f p s) {x : Nat} {y : Source}
    (h : Chain f ⟨x, false⟩ y) (hx : ∀ d op, opAt f d = some op → op.result = some x → Before f d p) :
    (y = ⟨x, false⟩ ∨ Linked W s y.negated x y.value) ∧
      ∀ d op, opAt f d = some op → op.result = some y.value → Before f d p := by
  generalize hx0 : (⟨x, false⟩ : Source) = x0 at h
  induction h with
  | refl => subst hx0; exact ⟨Or.inl rfl, hx⟩
  | @step y n pt _ ha hm hneg ih =>
    obtain ⟨ih1, ih2⟩ := ih
    have ha' := ha
    obtain ⟨d, op, hd, hr, -⟩ := ha'
    obtain ⟨v, v', h1, h2, h3⟩ := hI.made _ _ _ d op ha hm hd hr (ih2 d op hd hr)
    refine ⟨Or.inr ?_, fun d' op' hd' hr' => before_trans hsc.reachable hp (arrow_before hs hsc ha hd hr hd' hr') (ih2 d op hd hr)⟩
    rcases ih1 with h0 | ⟨u, u', k1, k2, k3⟩
    · rw [← hx0] at h0
      subst h0
      refine ⟨v, v', h1, h2, ?_⟩
      rcases h3 with ⟨rfl, rfl⟩ | ⟨b, rfl, rfl⟩
      · exact Or.inl ⟨by simpa using hneg, rfl⟩
      · refine Or.inr ⟨_, rfl, ?_⟩
        rw [hneg]
        cases b <;> cases pt <;> rfl
    · rw [h1] at k2
      cases k2
      refine ⟨u, v', k1, h2, ?_⟩
      rcases k3 with ⟨hn0, rfl⟩ | ⟨b, rfl, rfl⟩
      · rcases h3 with ⟨rfl, rfl⟩ | ⟨b, rfl, rfl⟩
        · exact Or.inl ⟨by rw [hneg, hn0]; rfl, rfl⟩
        · refine Or.inr ⟨_, rfl, ?_⟩
          rw [hneg, hn0]
          cases b <;> cases pt <;> rfl
      · rcases h3 with ⟨rfl, rfl⟩ | ⟨b', rfl, h3⟩
        · exact Or.inr ⟨_, rfl, by rw [hneg]; simp⟩
        · refine Or.inr ⟨_, rfl, ?_⟩
          have h4 := bool_inj h3
          rw [hneg]
          revert h4
          cases b <;> cases pt <;> cases b' <;> cases y.negated <;> simp

end Ferlium.Negation
