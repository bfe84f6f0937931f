import Verif.Model.Peephole
import Verif.Proofs.EditMerge
import Verif.Proofs.MirRen

/-! Lemmas on boolean materialization. -/
namespace Ferlium.Mir

variable {V σ : Type} {W : World V σ} {f g : Body} {D : Nat → Prop} {s s' : St V σ}

/-- A terminator executed in states which agree outside unused registers. -/
theorem off_stepTerm {R : Config V σ → Config V σ → Prop} {t : Term} (hd : ∀ x, R (.done x) (.done x)) (h : Off D s s')
    (ha : Avoids D t.operands) (hst : ∀ op n e, t = .invoke op n e → op.kind = .store → op.result = none)
    (he : ∀ b ∈ t.successors, ∀ s s' : St V σ, Off D s s' → R (enter f b s) (enter g b s')) :
    R (stepTerm W f t s) (stepTerm W g t s') := by
  cases t with
  | goto b => exact he b (by simp [Term.successors]) s s' h
  | condBr c t e =>
    have hc : valueOf W s c = valueOf W s' c :=
      ren_valueOf h (valRel_off fun r hr => ha r (by simp [Term.operands, hr]))
    simp only [stepTerm, ← hc]
    rcases (valueOf W s c).bind W.asBool with _ | _ | _
    · exact hd _
    · exact he e (by simp [Term.successors]) s s' h
    · exact he t (by simp [Term.successors]) s s' h
  | invoke op n e =>
    have h1 := off_execOp (W := W) (direct := fun _ => false) h (op := op) (by simpa [Term.operands] using ha)
      (hst op n e rfl)
    simp only [stepTerm]
    revert h1
    generalize execOp W (fun _ => false) op s = e1
    generalize execOp W (fun _ => false) op s' = e2
    intro h1
    cases h1 with
    | ok h1 => exact he n (by simp [Term.successors]) _ _ h1
    | error h1 => exact he e (by simp [Term.successors]) _ _ h1
    | halt w => exact hd _
    | stuck => exact hd _
  | yield v b =>
    have hv : ValRel (Corr.off D) v v := valRel_off fun r hr => ha r (by simp [Term.operands, hr])
    have h1 : Off D (exposeOne W s v) (exposeOne W s' v) := ren_exposeOne h hv
    have h2 : valueOf W (exposeOne W s v) v = valueOf W (exposeOne W s' v) v := ren_valueOf h1 hv
    simp only [stepTerm, ← h2, ← h1.world]
    split
    · split
      · exact he b (by simp [Term.successors]) _ _ (h1.withWorld _)
      · exact hd _
    · exact hd _
  | ret => simp only [stepTerm, ← h.world]; exact hd _
  | propagateError => simp only [stepTerm, ← h.world]; exact hd _
  | cleanupFailure => simp only [stepTerm, ← h.world]; exact hd _

/-- An operand which is a value that stays where it is when it is used. -/
def Plain (W : World V σ) (s : St V σ) (v : Value) (x : V) : Prop :=
  valueOf W s v = some x ∧ ∀ r, v = .register r → ∀ y o, s.env r = some (.value y o) → o = false

theorem plain_lit (l : Lit) : Plain W s (.constant l) (W.ofLit l) ∧ Plain W s (.pattern l) (W.ofLit l) :=
  ⟨⟨rfl, fun _ h => (by cases h)⟩, ⟨rfl, fun _ h => (by cases h)⟩⟩

theorem plain_expose {v : Value} {x : V} (h : Plain W s v x) : exposeOne W s v = s := by
  cases v with
  | register r =>
    have h1 := h.1
    unfold valueOf argOf at h1
    unfold exposeOne
    simp only [] at h1 ⊢
    split
    · rename_i c hc
      rw [hc] at h1
      simp at h1
    · rfl
  | _ => rfl

theorem plain_arg {v : Value} {x : V} {reads : Bool} (h : Plain W s v x) : argOf W reads s v = some (.value x) := by
  cases v with
  | register r =>
    have h1 := h.1
    unfold valueOf argOf at h1
    unfold argOf
    simp only [] at h1 ⊢
    cases he : s.env r with
    | none => rw [he] at h1; simp at h1
    | some b =>
      rw [he] at h1
      cases b with
      | value y o => simp at h1; subst h1; rfl
      | cell c => simp at h1
  | _ =>
    have h1 := h.1
    simp only [valueOf, argOf, Option.some.injEq] at h1 ⊢
    rw [h1]

theorem plain_consume {v : Value} {x : V} (h : Plain W s v x) : consumeSource W s (some v) = s := by
  unfold consumeSource
  cases v with
  | register r =>
    simp only []
    split
    · rename_i y hy
      have := h.2 r rfl y true hy
      cases this
    · rfl
  | _ => rfl

/-- Storing a value does not depend on where the value comes from. -/
theorem store_plain {v v' d : Value} {x : V} (h : Plain W s v x) (h' : Plain W s v' x) (res : Option Nat) :
    execOp W (Op.direct ⟨res, .store, [v, d]⟩) ⟨res, .store, [v, d]⟩ s =
      execOp W (Op.direct ⟨res, .store, [v', d]⟩) ⟨res, .store, [v', d]⟩ s := by
  have key : ∀ v0 : Value, Plain W s v0 x → execOp W (Op.direct ⟨res, .store, [v0, d]⟩) ⟨res, .store, [v0, d]⟩ s =
      match argOf W false s d with
      | none => .stuck
      | some .target => .ok (writeCell s (some d) (some x))
      | some a => match W.exec .store [.value x, a] s.world with
        | .ok w result written =>
          .ok (bindResult ⟨res, .store, []⟩ result (writeCell { s with world := w } (some d) written))
        | .error w => .error { s with world := w }
        | .halt w => .halt w := by
    intro v0 h0
    unfold execOp
    have he : exposeFrom W (Op.direct ⟨res, .store, [v0, d]⟩) 0 [v0, d] s = s := by
      simp only [exposeFrom, Op.direct, Op.writeIndex, Op.readsWhole, plain_expose h0]
      simp
    simp only [he, argsFrom, Op.readsWhole, plain_arg h0]
    cases ha : argOf W false s d with
    | none => rfl
    | some a =>
      cases a with
      | target =>
        simp only [execArgs, List.getElem?_cons_zero, List.getElem?_cons_succ, plain_consume h0]
      | value y =>
        simp only [execArgs, worldOp]
        cases W.exec .store [.value x, .value y] s.world with
        | ok w result written =>
          simp [bindOut, applyWrite, applyMove, Op.writeIndex, bindResult, Op.owned]
        | error w => rfl
        | halt w => rfl
      | content c =>
        simp only [execArgs, worldOp]
        cases W.exec .store [.value x, .content c] s.world with
        | ok w result written =>
          simp [bindOut, applyWrite, applyMove, Op.writeIndex, bindResult, Op.owned]
        | error w => rfl
        | halt w => rfl
  rw [key v h, key v' h']

/-- Comparing a boolean with a boolean. -/
theorem compare_plain {v : Value} {b c : Bool} {r : Nat} (h : Plain W s v (W.bool b)) :
    execOp W (Op.direct ⟨some r, .compareEqual, [v, .pattern (.bool c)]⟩)
      ⟨some r, .compareEqual, [v, .pattern (.bool c)]⟩ s = .ok (s.set r (some (.value (W.bool (b == c)) false))) := by
  unfold execOp
  have he : exposeFrom W (Op.direct ⟨some r, .compareEqual, [v, .pattern (.bool c)]⟩) 0 [v, .pattern (.bool c)] s = s := by
    simp only [exposeFrom, Op.direct, Op.writeIndex, Op.readsWhole]
    simp [exposeOne]
  simp only [he, argsFrom, plain_arg h]
  simp only [argOf, World.ofLit, execArgs, W.compare_bool, bindResult, Op.owned]

end Ferlium.Mir

namespace Ferlium.Peephole

open Ferlium.Mir

variable {V σ : Type} {W : World V σ} {f g : Body}

/-! ### The plans -/

/-- A two-way branch whose arms store opposite booleans into the same place and meet again. -/
structure Diamond (f : Body) (b : Nat) (p : Plan) : Prop where
  branch : ∃ blk t e, f[b]? = some blk ∧ blk.term = .condBr p.condition t e ∧ t ≠ e ∧
    (∃ l res, boolValue l = some p.storedWhenTrue ∧
      f[t]? = some ⟨[⟨res, .store, [l, p.destination]⟩], .goto p.join⟩) ∧
    (∃ l res, boolValue l = some (!p.storedWhenTrue) ∧
      f[e]? = some ⟨[⟨res, .store, [l, p.destination]⟩], .goto p.join⟩)
  block : p.block = b

theorem singleBoolStore_spec {b : Nat} {bs : BoolStore} : singleBoolStore f b = some bs ↔
    ∃ l res, boolValue l = some bs.value ∧
      f[b]? = some ⟨[⟨res, .store, [l, bs.destination]⟩], .goto bs.join⟩ := by
  unfold singleBoolStore
  constructor
  · intro h
    split at h
    · cases h
    · rename_i blk hblk
      split at h
      · rename_i op target hops hterm
        split at h
        · rename_i hk
          split at h
          · rename_i value destination hop
            rw [Option.map_eq_some_iff] at h
            obtain ⟨v, h1, rfl⟩ := h
            refine ⟨value, op.result, h1, ?_⟩
            rw [hblk]
            obtain ⟨ops, term⟩ := blk
            obtain ⟨res, k, operands⟩ := op
            simp only at hops hterm hk hop
            subst hops hterm hk hop
            rfl
          · cases h
        · cases h
      · cases h
  · rintro ⟨l, res, h1, h2⟩
    rw [h2]
    simp [h1]

theorem plan_spec {b : Nat} {p : Plan} : plan f b = some p ↔ Diamond f b p := by
  unfold plan
  constructor
  · intro h
    split at h
    · cases h
    · rename_i blk hblk
      split at h
      · rename_i c t e hterm
        split at h
        · cases h
        · rename_i hte
          split at h
          · rename_i ts es hts hes
            split at h
            · cases h
            · rename_i hcond
              simp only [not_or, ne_eq, not_not] at hcond
              cases h
              obtain ⟨l1, r1, a1, a2⟩ := singleBoolStore_spec.1 hts
              obtain ⟨l2, r2, a3, a4⟩ := singleBoolStore_spec.1 hes
              refine ⟨⟨blk, t, e, hblk, hterm, hte, ⟨l1, r1, a1, a2⟩, l2, r2, ?_, ?_⟩, rfl⟩
              · rw [a3]
                have := hcond.2.2
                revert this
                cases ts.value <;> cases es.value <;> simp
              · rw [a4, hcond.1, hcond.2.1]
          · cases h
      · cases h
  · rintro ⟨⟨blk, t, e, h1, h2, h3, ⟨l1, r1, h4⟩, l2, r2, h5⟩, rfl⟩
    rw [h1]
    have ht : singleBoolStore f t = some ⟨p.storedWhenTrue, p.destination, p.join⟩ :=
      singleBoolStore_spec.2 ⟨l1, r1, h4⟩
    have he : singleBoolStore f e = some ⟨!p.storedWhenTrue, p.destination, p.join⟩ :=
      singleBoolStore_spec.2 ⟨l2, r2, h5⟩
    simp only [h2, h3, if_false, ht, he]
    simp

/-! ### The edited body -/

/-- What the edits do to each block. -/
structure Edited (f g : Body) (next : Nat) : Prop where
  len : g.length = f.length
  same : ∀ b blk, f[b]? = some blk → plan f b = none → g[b]? = some blk
  changed : ∀ b blk p, f[b]? = some blk → plan f b = some p → ∃ n, next ≤ n ∧
    g[b]? = some ⟨blk.ops ++ replacement p n, .goto p.join⟩

theorem applyPlans_spec : ∀ (l : List Nat) (e : Body × Nat), l.Nodup → (∀ b ∈ l, b < e.1.length) →
    ((l.filterMap (plan f)).foldl applyPlan e).1.length = e.1.length ∧
    e.2 ≤ ((l.filterMap (plan f)).foldl applyPlan e).2 ∧
    (∀ b : Nat, (b ∉ l ∨ plan f b = none) → ((l.filterMap (plan f)).foldl applyPlan e).1[b]? = e.1[b]?) ∧
    (∀ (b : Nat) blk p, b ∈ l → e.1[b]? = some blk → plan f b = some p → ∃ n, e.2 ≤ n ∧
      ((l.filterMap (plan f)).foldl applyPlan e).1[b]? = some ⟨blk.ops ++ replacement p n, .goto p.join⟩) := by
  intro l
  induction l with
  | nil => intro e _ _; simp
  | cons a l ih =>
    intro e hnd hl
    obtain ⟨ha, hnd⟩ := List.nodup_cons.1 hnd
    cases hp : plan f a with
    | none =>
      rw [List.filterMap_cons_none hp]
      obtain ⟨h1, h2, h3, h4⟩ := ih e hnd fun b hb => hl b (by simp [hb])
      refine ⟨h1, h2, fun b hb => h3 b ?_, fun b blk p hb => ?_⟩
      · rcases hb with hb | hb
        · exact Or.inl fun h => hb (by simp [h])
        · exact Or.inr hb
      · rcases List.mem_cons.1 hb with rfl | hb
        · intro _ h; rw [hp] at h; cases h
        · exact h4 b blk p hb
    | some p =>
      rw [List.filterMap_cons_some hp, List.foldl_cons]
      have hpb : p.block = a := (plan_spec.1 hp).block
      have hal : a < e.1.length := hl a (by simp)
      have hap : applyPlan e p = (e.1.set a { ops := e.1[a].ops ++ replacement p e.2, term := .goto p.join },
          if p.storedWhenTrue then e.2 else e.2 + 1) := by
        simp [applyPlan, hpb, List.getElem?_eq_getElem hal]
      obtain ⟨h1, h2, h3, h4⟩ := ih (applyPlan e p) hnd (by
        intro b hb; rw [hap]; simpa using hl b (by simp [hb]))
      have hle : e.2 ≤ (applyPlan e p).2 := by rw [hap]; simp only []; split <;> omega
      have hother : ∀ b : Nat, b ≠ a → (applyPlan e p).1[b]? = e.1[b]? := by
        intro b hb; rw [hap]; simp only []; rw [List.getElem?_set_ne (Ne.symm hb)]
      refine ⟨by rw [h1, hap]; simp, by omega, ?_, ?_⟩
      · intro b hb
        have hba : b ≠ a := by
          rintro rfl
          rcases hb with hb | hb
          · exact hb (by simp)
          · rw [hp] at hb; cases hb
        rw [h3 b ?_, hother b hba]
        rcases hb with hb | hb
        · exact Or.inl fun h => hb (by simp [h])
        · exact Or.inr hb
      · intro b blk q hb hblk hq
        rcases List.mem_cons.1 hb with rfl | hb
        · rw [hp] at hq; cases hq
          refine ⟨e.2, le_refl _, ?_⟩
          rw [h3 b (Or.inl ha), hap]
          rw [List.getElem?_eq_getElem hal] at hblk
          cases hblk
          simp [hal]
        · have hba : b ≠ a := fun h => ha (h ▸ hb)
          obtain ⟨n, hn, hg⟩ := h4 b blk q hb (by rw [hother b hba]; exact hblk) hq
          exact ⟨n, by omega, hg⟩

theorem edited_spec : Edited f (((List.range f.length).filterMap (plan f)).foldl applyPlan (f, nextValue f)).1
    (nextValue f) := by
  obtain ⟨h1, h2, h3, h4⟩ := applyPlans_spec (f := f) (List.range f.length) (f, nextValue f) List.nodup_range
    (by intro b hb; simpa using hb)
  refine ⟨h1, fun b blk hb hp => by rw [h3 b (Or.inr hp)]; exact hb, fun b blk p hb hp => ?_⟩
  exact h4 b blk p (by simpa using (List.getElem?_eq_some_iff.1 hb).1) hb hp

theorem le_foldl_max (l : List Nat) : ∀ a x : Nat, (x ≤ a ∨ x ∈ l) → x ≤ l.foldl max a := by
  induction l with
  | nil => intro a x h; simpa using h
  | cons y l ih =>
    intro a x h
    rw [List.foldl_cons]
    apply ih
    rcases h with h | h
    · left; omega
    · rcases List.mem_cons.1 h with rfl | h
      · left; omega
      · exact Or.inr h

theorem result_lt_nextValue {b : Block} (hb : b ∈ f) {r : Nat}
    (hr : r ∈ b.results ∨ termResult b.term = some r) : r < nextValue f := by
  unfold nextValue
  apply le_foldl_max
  right
  rw [List.mem_map]
  refine ⟨r, List.mem_flatMap.2 ⟨b, hb, ?_⟩, rfl⟩
  rw [List.mem_append]
  rcases hr with h | h
  · exact Or.inl h
  · exact Or.inr (by simp [h])

/-! ### Rules of the verifier which the pass relies on -/

/-- Conditions of branches are booleans, hence not owned; stores have no result; operands name defined registers. -/
structure Checked (f : Body) : Prop where
  conditions : ∀ b ∈ f, ∀ r t e, b.term = .condBr (.register r) t e →
    ∀ b' ∈ f, (∀ op ∈ b'.ops, op.result = some r → op.owned = false) ∧
      ∀ op n e, b'.term = .invoke op n e → op.result ≠ some r
  stores : ∀ b ∈ f, (∀ op ∈ b.ops, op.kind = .store → op.result = none) ∧
    ∀ op n e, b.term = .invoke op n e → op.kind = .store → op.result = none
  defined : ∀ b ∈ f, (∀ op ∈ b.ops, ∀ r, Value.register r ∈ op.operands → ∃ b' ∈ f, r ∈ b'.results) ∧
    ∀ r, Value.register r ∈ b.term.operands → ∃ b' ∈ f, r ∈ b'.results

/-- The registers the pass may introduce. -/
def Fresh (f : Body) (r : Nat) : Prop := nextValue f ≤ r

theorem avoids_op (h : Checked f) {b : Block} (hb : b ∈ f) {op : Op} (hop : op ∈ b.ops) :
    Avoids (Fresh f) op.operands := by
  intro r hr hf
  obtain ⟨b', hb', h1⟩ := (h.defined b hb).1 op hop r hr
  have := result_lt_nextValue hb' (Or.inl h1)
  unfold Fresh at hf
  omega

theorem avoids_term (h : Checked f) {b : Block} (hb : b ∈ f) : Avoids (Fresh f) b.term.operands := by
  intro r hr hf
  obtain ⟨b', hb', h1⟩ := (h.defined b hb).2 r hr
  have := result_lt_nextValue hb' (Or.inl h1)
  unfold Fresh at hf
  omega

/-- Registers which are conditions never own their value. -/
def NotOwned (f : Body) (r : Nat) (b : Option (Bind V)) : Prop :=
  (∃ blk ∈ f, ∃ t e, blk.term = .condBr (.register r) t e) → ∀ y o, b = some (.value y o) → o = false

theorem notOwned_keeps (h : Checked f) : BodyKeeps (V := V) (NotOwned f) f := by
  have hk : ∀ {direct : Nat → Bool} {op : Op}, (∀ r, op.result = some r →
      (∃ blk ∈ f, ∃ t e, blk.term = .condBr (.register r) t e) → op.owned = false) →
      Keeps (V := V) (NotOwned f) direct op := by
    intro direct op ho
    refine ⟨fun r _ y o h => (by cases h), fun r c c' _ _ y o h => (by cases h), ?_, ?_, ?_⟩
    · intro i r c v _ _ _ _ y o h
      cases h; rfl
    · intro r v hr _ hc y o h
      cases h
      exact ho r hr hc
    · intro r ty _ _ _ y o h
      cases h
  refine ⟨fun b hb op hop => hk ?_, fun b hb op n e ht => hk ?_, ?_⟩
  · rintro r hr ⟨blk, hblk, t, e, hc⟩
    exact (h.conditions blk hblk r t e hc b hb).1 op hop hr
  · rintro r hr ⟨blk, hblk, t', e', hc⟩
    exact absurd hr ((h.conditions blk hblk r t' e' hc b hb).2 op n e ht)
  · intro b hb r k ht c w _ _ y o h
    cases h; rfl

/-! ### Simulation -/

/-- The relation between the executions of the original and of the edited body. -/
inductive Rel (W : World V σ) (f : Body) : Config V σ → Config V σ → Prop
  | done x : Rel W f (.done x) (.done x)
  | same {ops t s s'} : Off (Fresh f) s s' → Rel W f (.at ops t s) (.at ops t s')
  | branch {ops t e s s' b p n} : Off (Fresh f) s s' → Diamond f b p → (∃ blk, f[b]? = some blk ∧ blk.term = .condBr p.condition t e) →
      nextValue f ≤ n →
      Rel W f (.at ops (.condBr p.condition t e) s) (.at (ops ++ replacement p n) (.goto p.join) s')
  | arm {res l d j s s' v b} : Off (Fresh f) s s' → boolValue l = some b → Plain W s' v (W.bool b) →
      Rel W f (.at [⟨res, .store, [l, d]⟩] (.goto j) s) (.at [⟨none, .store, [v, d]⟩] (.goto j) s')
  | negated {res l d j s s' v b n} : Off (Fresh f) s s' → boolValue l = some b → Plain W s' v (W.bool (!b)) →
      nextValue f ≤ n →
      Rel W f (.at [⟨res, .store, [l, d]⟩] (.goto j) s)
        (.at [⟨some n, .compareEqual, [v, .pattern (.bool false)]⟩, ⟨none, .store, [.register n, d]⟩] (.goto j) s')

theorem rel_enter (hE : Edited f g (nextValue f)) (b : Nat) {s s' : St V σ} (h : Off (Fresh f) s s') :
    Rel W f (enter f b s) (enter g b s') := by
  unfold enter
  cases hb : f[b]? with
  | none =>
    have : g[b]? = none := by
      rw [List.getElem?_eq_none_iff] at hb ⊢
      rw [hE.len]; exact hb
    rw [this]
    exact .done _
  | some blk =>
    cases hp : plan f b with
    | none =>
      rw [hE.same b blk hb hp]
      exact .same h
    | some p =>
      obtain ⟨n, hn, hg⟩ := hE.changed b blk p hb hp
      rw [hg]
      have hD := plan_spec.1 hp
      obtain ⟨blk', t, e, h1, h2, _⟩ := hD.branch
      rw [hb] at h1; cases h1
      simp only [h2]
      exact .branch h hD ⟨blk, hb, h2⟩ hn

theorem boolValue_plain {l : Value} {b : Bool} (h : boolValue l = some b) (s : St V σ) : Plain W s l (W.bool b) := by
  unfold boolValue at h
  split at h
  · cases h; exact plain_lit (.bool b) |>.1
  · cases h; exact plain_lit (.bool b) |>.2
  · cases h

/-- The first step of the branch. -/
theorem rel_branch_step (hc : Checked f) {t e : Nat} {s s' : St V σ} {b : Nat} {p : Plan} {n : Nat}
    (h : Off (Fresh f) s s') (hD : Diamond f b p) (hb : ∃ blk, f[b]? = some blk ∧ blk.term = .condBr p.condition t e)
    (hn : nextValue f ≤ n) (hown : AllBind (NotOwned f) s)
    (hsafe : step W f (.at [] (.condBr p.condition t e) s) ≠ .done .stuck) :
    Rel W f (step W f (.at [] (.condBr p.condition t e) s)) (.at (replacement p n) (.goto p.join) s') := by
  obtain ⟨blk, hblk, hterm⟩ := hb
  obtain ⟨blk', t', e', h1, h2, h3, ⟨l1, r1, h4, h5⟩, l2, r2, h6, h7⟩ := hD.branch
  rw [hblk] at h1; cases h1
  rw [hterm] at h2
  cases h2
  have hmem := List.mem_of_getElem? hblk
  have hav := avoids_term hc hmem
  rw [hterm] at hav
  have hval : valueOf W s p.condition = valueOf W s' p.condition :=
    ren_valueOf h (valRel_off fun r hr => hav r (by simp [Term.operands, hr]))
  have hplain : ∀ x, valueOf W s p.condition = some x → Plain W s' p.condition x := by
    intro x hx
    refine ⟨by rw [← hval]; exact hx, ?_⟩
    intro r hr y o hy
    have hr' : s.env r = s'.env r := h.env r r ⟨rfl, hav r (by simp [Term.operands, hr])⟩
    rw [← hr'] at hy
    exact hown r ⟨blk, hmem, t, e, by rw [hterm, hr]⟩ y o hy
  simp only [step, stepTerm] at hsafe ⊢
  have main : ∀ (b0 : Bool) (l : Value) (r : Option Nat), (valueOf W s p.condition).bind W.asBool = some b0 →
      boolValue l = some (if p.storedWhenTrue then b0 else !b0) →
      Rel W f (.at [⟨r, .store, [l, p.destination]⟩] (.goto p.join) s) (.at (replacement p n) (.goto p.join) s') := by
    intro b0 l r hcond hl
    rw [Option.bind_eq_some_iff] at hcond
    obtain ⟨x, hx, hxb⟩ := hcond
    have hxb' := W.bool_of_asBool x b0 hxb
    subst hxb'
    unfold replacement
    cases hst : p.storedWhenTrue with
    | true =>
      rw [hst] at hl
      simp only [if_true] at hl ⊢
      exact .arm h hl (hplain _ hx)
    | false =>
      rw [hst] at hl
      simp only [Bool.false_eq_true, if_false] at hl ⊢
      exact .negated h hl (by simpa using hplain _ hx) hn
  cases hcond : (valueOf W s p.condition).bind W.asBool with
  | none => rw [hcond] at hsafe; exact absurd rfl hsafe
  | some b0 =>
    cases b0 with
    | true =>
      simp only [enter, h5]
      exact main true l1 r1 hcond (by rw [h4]; cases p.storedWhenTrue <;> rfl)
    | false =>
      simp only [enter, h7]
      exact main false l2 r2 hcond (by rw [h6]; cases p.storedWhenTrue <;> rfl)

theorem stepRel_config {op op' : Op} {ops : List Op} {t : Term} {s s' : St V σ}
    (h : StepRel (Off (Fresh f)) (Off (Fresh f)) (execOp W op.direct op s) (execOp W op'.direct op' s')) :
    Rel W f (step W f (.at (op :: ops) t s)) (step W g (.at (op' :: ops) t s')) := by
  simp only [step]
  revert h
  generalize execOp W op.direct op s = e1
  generalize execOp W op'.direct op' s' = e2
  intro h
  cases h with
  | ok h => exact .same h
  | error h => simp only [h.world]; exact .done _
  | halt w => exact .done _
  | stuck => exact .done _

/-- The store of an arm. -/
theorem rel_arm_step {res : Option Nat} (hres : res = none) {l d v : Value} {j : Nat} {s s' : St V σ} {b : Bool}
    (h : Off (Fresh f) s s') (hl : boolValue l = some b) (hv : Plain W s' v (W.bool b))
    (hd : ∀ r, d = .register r → ¬ Fresh f r) :
    Rel W f (step W f (.at [⟨res, .store, [l, d]⟩] (.goto j) s)) (step W g (.at [⟨none, .store, [v, d]⟩] (.goto j) s')) := by
  subst hres
  have h1 := off_execOp (W := W) (direct := Op.direct ⟨none, .store, [l, d]⟩) h (op := ⟨none, .store, [l, d]⟩) (by
    intro r hr
    simp only [List.mem_cons, List.not_mem_nil, or_false] at hr
    rcases hr with hr | hr
    · rw [← hr] at hl; cases hl
    · exact hd r hr.symm) (fun _ => rfl)
  rw [store_plain (boolValue_plain hl s') hv none] at h1
  exact stepRel_config h1

theorem rel_compare_step {res : Option Nat} {l d v : Value} {j n : Nat} {s s' : St V σ} {b : Bool}
    (h : Off (Fresh f) s s') (hl : boolValue l = some b) (hv : Plain W s' v (W.bool (!b))) (hn : nextValue f ≤ n) :
    Rel W f (.at [⟨res, .store, [l, d]⟩] (.goto j) s)
      (step W g (.at [⟨some n, .compareEqual, [v, .pattern (.bool false)]⟩, ⟨none, .store, [.register n, d]⟩] (.goto j) s')) := by
  simp only [step, compare_plain hv]
  refine .arm (off_set h (show Fresh f n from hn) _) hl ⟨?_, ?_⟩
  · simp only [valueOf, argOf, St.set, Function.update_self]
    cases b <;> rfl
  · intro r hr y o hy
    cases hr
    simp only [St.set, Function.update_self, Option.some.injEq, Bind.value.injEq] at hy
    exact hy.2.symm

theorem rel_same_step (hc : Checked f) (hE : Edited f g (nextValue f)) {ops : List Op} {t : Term} {s s' : St V σ}
    (h : Off (Fresh f) s s') (hcode : CodeOf f ops t) :
    Rel W f (step W f (.at ops t s)) (step W g (.at ops t s')) := by
  obtain ⟨b, hb, ⟨pre, hpre⟩, rfl⟩ := hcode
  cases ops with
  | cons op ops =>
    have hop : op ∈ b.ops := by rw [hpre]; simp
    exact stepRel_config (off_execOp h (avoids_op hc hb hop) ((hc.stores b hb).1 op hop))
  | nil =>
    exact off_stepTerm (fun x => .done x) h (avoids_term hc hb) ((hc.stores b hb).2) fun b _ s s' h => rel_enter hE b h

theorem rel_op_step (hc : Checked f) {op : Op} {ops : List Op} {s s' : St V σ} {t e b n : Nat} {p : Plan}
    (h : Off (Fresh f) s s') (hD : Diamond f b p) (hb : ∃ blk, f[b]? = some blk ∧ blk.term = .condBr p.condition t e)
    (hn : nextValue f ≤ n) (hcode : CodeOf f (op :: ops) (.condBr p.condition t e)) :
    Rel W f (step W f (.at (op :: ops) (.condBr p.condition t e) s))
      (step W g (.at (op :: (ops ++ replacement p n)) (.goto p.join) s')) := by
  obtain ⟨blk, hblk, ⟨pre, hpre⟩, _⟩ := hcode
  have hop : op ∈ blk.ops := by rw [hpre]; simp
  have h1 := off_execOp (W := W) (direct := op.direct) h (avoids_op hc hblk hop) ((hc.stores blk hblk).1 op hop)
  simp only [step]
  revert h1
  generalize execOp W op.direct op s = e1
  generalize execOp W op.direct op s' = e2
  intro h1
  cases h1 with
  | ok h1 => exact .branch h1 hD hb hn
  | error h1 => simp only [h1.world]; exact .done _
  | halt w => exact .done _
  | stuck => exact .done _

/-- What is known of the original execution. -/
def Good (W : World V σ) (f : Body) (c : Config V σ) : Prop := SafeFrom W f c ∧ ConfigAll (NotOwned f) f c

theorem Good.step (hc : Checked f) {c : Config V σ} (h : Good W f c) : Good W f (step W f c) :=
  ⟨h.1.step, configAll_step (notOwned_keeps hc) h.2⟩

/-- The code of an arm. -/
theorem arm_code (hc : Checked f) {res : Option Nat} {l d : Value} {j : Nat}
    (h : CodeOf f [⟨res, .store, [l, d]⟩] (.goto j)) : res = none ∧ ∀ r, d = .register r → ¬ Fresh f r := by
  obtain ⟨blk, hblk, ⟨pre, hpre⟩, _⟩ := h
  have hop : (⟨res, .store, [l, d]⟩ : Op) ∈ blk.ops := by rw [hpre]; simp
  refine ⟨(hc.stores blk hblk).1 _ hop rfl, fun r hr => avoids_op hc hblk hop r (by simp [hr])⟩

theorem rel_forward (hc : Checked f) (hE : Edited f g (nextValue f)) {c c' : Config V σ} (hg : Good W f c)
    (h : Rel W f c c') : ∃ k, Rel W f (step W f c) (run W g k c') := by
  cases h with
  | done x => exact ⟨0, .done x⟩
  | same h => exact ⟨1, rel_same_step (g := g) hc hE h hg.2.1⟩
  | @branch ops t e s s' b p n h hD hb hn =>
    cases ops with
    | nil =>
      refine ⟨0, ?_⟩
      exact rel_branch_step hc h hD hb hn hg.2.2 (hg.1 1)
    | cons op ops => exact ⟨1, rel_op_step (g := g) hc h hD hb hn hg.2.1⟩
  | arm h hl hv =>
    obtain ⟨h1, h2⟩ := arm_code hc hg.2.1
    exact ⟨1, rel_arm_step (g := g) h1 h hl hv h2⟩
  | @negated res l d j s s' v b n h hl hv hn =>
    obtain ⟨h1, h2⟩ := arm_code hc hg.2.1
    refine ⟨2, ?_⟩
    simp only [run]
    have h3 := rel_compare_step (W := W) (g := g) (res := res) (d := d) (j := j) h hl hv hn
    simp only [step, compare_plain hv] at h3 ⊢
    cases h3 with
    | arm h4 h5 h6 =>
      exact rel_arm_step (g := g) h1 h4 h5 h6 h2
    | same h4 => exact rel_same_step hc hE h4 hg.2.1

theorem rel_backward (hc : Checked f) (hE : Edited f g (nextValue f)) {c c' : Config V σ} (hg : Good W f c)
    (h : Rel W f c c') : ∃ k, Rel W f (run W f k c) (step W g c') := by
  cases h with
  | done x => exact ⟨0, .done x⟩
  | same h => exact ⟨1, rel_same_step (g := g) hc hE h hg.2.1⟩
  | @branch ops t e s s' b p n h hD hb hn =>
    cases ops with
    | nil =>
      have h1 := rel_branch_step hc h hD hb hn hg.2.2 (hg.1 1)
      have hg1 := hg.step hc
      simp only [List.nil_append]
      revert h1 hg1
      generalize hc1 : step W f (.at [] (.condBr p.condition t e) s) = c1
      generalize hc2 : (.at (replacement p n) (.goto p.join) s' : Config V σ) = c2
      intro h1 hg1
      cases h1 with
      | done x => cases hc2
      | same h2 =>
        refine ⟨2, ?_⟩
        simp only [run, hc1]
        exact rel_same_step hc hE h2 hg1.2.1
      | branch h2 hD' hb' hn' =>
        exfalso
        -- an arm is not a branch
        obtain ⟨blk, t', e', k1, k2, _, ⟨l1, r1, _, k5⟩, l2, r2, _, k7⟩ := hD.branch
        obtain ⟨blk', k8, k9⟩ := hb
        rw [k1] at k8; cases k8
        rw [k2] at k9; cases k9
        simp only [step, stepTerm] at hc1
        split at hc1
        · simp [enter, k5] at hc1
        · simp [enter, k7] at hc1
        · cases hc1
      | arm h2 hl hv =>
        obtain ⟨a1, a2⟩ := arm_code hc hg1.2.1
        refine ⟨2, ?_⟩
        simp only [run, hc1]
        exact rel_arm_step a1 h2 hl hv a2
      | negated h2 hl hv hn' =>
        refine ⟨1, ?_⟩
        simp only [run, hc1]
        exact rel_compare_step h2 hl hv hn'
    | cons op ops => exact ⟨1, rel_op_step (g := g) hc h hD hb hn hg.2.1⟩
  | arm h hl hv =>
    obtain ⟨h1, h2⟩ := arm_code hc hg.2.1
    exact ⟨1, rel_arm_step (g := g) h1 h hl hv h2⟩
  | negated h hl hv hn => exact ⟨0, rel_compare_step h hl hv hn⟩

theorem edited_same (hc : Checked f) (hE : Edited f g (nextValue f)) {w : σ} (hs : Safe W f w) :
    SameBehaviour W f g w := by
  have hrun : ∀ k {c : Config V σ}, Good W f c → Good W f (run W f k c) := by
    intro k
    induction k with
    | zero => intro c h; exact h
    | succ k ih => intro c h; exact ih (h.step hc)
  refine sim_both (fun c c' => Good W f c ∧ Rel W f c c') ?_ ?_ ?_ ?_ ?_ ⟨⟨safeFrom_start hs, configAll_start ?_ w⟩, ?_⟩
  · rintro c c' ⟨_, h⟩
    cases h with
    | done x => rfl
    | same h => exact congrArg some h.world
    | branch h => exact congrArg some h.world
    | arm h => exact congrArg some h.world
    | negated h => exact congrArg some h.world
  · rintro x c' ⟨_, h⟩; cases h; rfl
  · rintro x c' ⟨_, h⟩; cases h; rfl
  · rintro c c' ⟨hg, h⟩
    obtain ⟨k, hk⟩ := rel_forward hc hE hg h
    exact ⟨k, hg.step hc, hk⟩
  · rintro c c' ⟨hg, h⟩
    obtain ⟨k, hk⟩ := rel_backward hc hE hg h
    exact ⟨k, hrun k hg, hk⟩
  · intro r _ y o h; cases h
  · exact rel_enter hE 0 .refl

theorem edited_inRange (hr : InRange f) (hE : Edited f g (nextValue f)) : InRange g := by
  intro b hb t ht
  rw [hE.len]
  obtain ⟨i, hi⟩ := List.getElem?_of_mem hb
  have hil : i < f.length := by rw [← hE.len]; exact (List.getElem?_eq_some_iff.1 hi).1
  have hfi := List.getElem?_eq_getElem hil
  cases hp : plan f i with
  | none =>
    rw [hE.same i _ hfi hp] at hi
    cases hi
    exact hr _ (List.getElem_mem hil) t ht
  | some p =>
    obtain ⟨n, _, hg⟩ := hE.changed i _ p hfi hp
    rw [hg] at hi
    cases hi
    simp [Term.successors] at ht
    subst ht
    obtain ⟨blk, t', e', _, _, _, ⟨l1, r1, _, k5⟩, _⟩ := (plan_spec.1 hp).branch
    exact hr _ (List.mem_of_getElem? k5) p.join (by simp [Term.successors])

end Ferlium.Peephole
