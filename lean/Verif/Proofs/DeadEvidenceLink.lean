import Verif.Proofs.DeadEvidence

/-!
# The rewritten module runs like the module before
-/

namespace Ferlium.DeadEvidence

open Inline

variable {P V C W E : Type}

theorem OperRel.symm {i j : Nat} {o o' : Operand} (h : OperRel i j o o') : OperRel j i o' o := by
  cases h <;> constructor

theorem OperRel.clean {sp : Nat → Prop} {i j : Nat} {o o' : Operand} (h : OperRel i j o o')
    (hc : CleanOperand sp o) : CleanOperand sp o' := by
  cases h <;> first | exact hc | (intro f hf; cases hf)

theorem OperRel.refl (o : Operand) : OperRel 0 0 o o := by
  cases o with
  | param p => simpa using OperRel.param (i := 0) (j := 0) p
  | reg r => exact .reg r
  | fn f => exact .fn f
  | const c => exact .const c

theorem opers_symm {i j : Nat} {os os' : List Operand} (h : List.Forall₂ (OperRel i j) os os') :
    List.Forall₂ (OperRel j i) os' os := h.flip.imp fun _ _ h => h.symm

theorem opers_clean {sp : Nat → Prop} {i j : Nat} {os os' : List Operand}
    (h : List.Forall₂ (OperRel i j) os os') (hc : ∀ o ∈ os, CleanOperand sp o) :
    ∀ o ∈ os', CleanOperand sp o := by
  induction h with
  | nil => simp
  | cons ho _ ih =>
    intro o hm
    rcases List.mem_cons.1 hm with rfl | hm
    · exact ho.clean (hc _ List.mem_cons_self)
    · exact ih (fun o h => hc o (List.mem_cons_of_mem _ h)) o hm

theorem opers_refl (os : List Operand) : List.Forall₂ (OperRel 0 0) os os :=
  List.forall₂_same.2 fun o _ => OperRel.refl o

theorem OpRel.symm {sp : Nat → Prop} {nA nB : Nat → Nat} {i j : Nat} {op op' : Op}
    (h : OpRel sp nA nB i j op op') : OpRel sp nB nA j i op' op := by
  cases h with
  | plain ho hc => exact .plain (opers_symm ho) (opers_clean ho hc)
  | call hs hA hB ho hc => exact .call hs hB hA (opers_symm ho) (opers_clean ho hc)

theorem TermRel.symm {sp : Nat → Prop} {nA nB : Nat → Nat} {i j : Nat} {t t' : Term}
    (h : TermRel sp nA nB i j t t') : TermRel sp nB nA j i t' t := by
  cases h with
  | goto t => exact .goto t
  | condBr h => exact .condBr h.symm
  | invoke h => exact .invoke h.symm
  | ret => exact .ret
  | propagate => exact .propagate
  | failure => exact .failure
  | yield h => exact .yield h.symm

theorem FnRel.symm {sp : Nat → Prop} {nA nB : Nat → Nat} {i j : Nat} {F G : Fn}
    (h : FnRel sp nA nB i j F G) : FnRel sp nB nA j i G F := by
  obtain ⟨⟨k, h1, h2⟩, h3⟩ := h
  exact ⟨⟨k, h2, h1⟩, h3.flip.imp fun x y h =>
    ⟨h.1.flip.imp fun _ _ h => h.symm, h.2.symm⟩⟩

/-- A special function is named only as the callee of a call. -/
def CalleeOnly (sp : Nat → Prop) (F : Fn) : Prop :=
  ∀ blk ∈ F.blocks, ∀ op ∈ blk.ops ++ blk.term.invoked.toList,
    (op.kind = .call → ∀ o ∈ op.operands.tail, CleanOperand sp o) ∧
    (op.kind ≠ .call → ∀ o ∈ op.operands, CleanOperand sp o)

/-- A special function is not named. -/
def Unnamed (sp : Nat → Prop) (F : Fn) : Prop :=
  ∀ blk ∈ F.blocks, ∀ op ∈ blk.ops ++ blk.term.invoked.toList, ∀ o ∈ op.operands, CleanOperand sp o

theorem mapM_forall {α β : Type} {f : α → Option β} {R : α → β → Prop} {l : List α} {k : List β}
    (h : l.mapM f = some k) (hR : ∀ a ∈ l, ∀ b, f a = some b → R a b) : List.Forall₂ R l k := by
  induction l generalizing k with
  | nil =>
    simp only [List.mapM_nil, Option.pure_def, Option.some.injEq] at h
    subst h
    exact .nil
  | cons a t ih =>
    simp only [List.mapM_cons, Option.bind_eq_bind, Option.bind_eq_some_iff, Option.pure_def,
      Option.some.injEq] at h
    obtain ⟨b, hb, bs, hbs, rfl⟩ := h
    exact .cons (hR a List.mem_cons_self b hb) (ih hbs fun a ha => hR a (List.mem_cons_of_mem _ ha))

theorem renumber_false (m k : Nat) : ∀ p q, (renumber m (List.replicate k false))[p]? = some (some q) →
    q = m + p ∧ p < k := by
  induction k generalizing m with
  | zero => simp [renumber]
  | succ k ih =>
    intro p q h
    rw [List.replicate_succ, renumber] at h
    cases p with
    | zero => simp at h; omega
    | succ p =>
      have := ih (m + 1) p q (by simpa using h)
      omega

/-- Parameters after the dictionaries move down. -/
theorem renumber_spec (n k : Nat) :
    ∀ p q, (renumber 0 (List.replicate n true ++ List.replicate k false))[p]? = some (some q) →
      p = n + q ∧ q < k := by
  induction n with
  | zero =>
    intro p q h
    have := renumber_false 0 k p q (by simpa using h)
    omega
  | succ n ih =>
    intro p q h
    rw [List.replicate_succ, List.cons_append, renumber] at h
    cases p with
    | zero => simp at h
    | succ p =>
      have := ih p q (by simpa using h)
      omega

theorem renumberOperand_rel {n k : Nat} {o o' : Operand}
    (h : renumberOperand (renumber 0 (List.replicate n true ++ List.replicate k false)) o = some o') :
    OperRel n 0 o o' := by
  cases o with
  | param p =>
    simp only [renumberOperand] at h
    split at h
    · rename_i q hq
      cases h
      obtain ⟨rfl, -⟩ := renumber_spec n k p q hq
      simpa using OperRel.param (i := n) (j := 0) q
    · exact absurd h (by simp)
  | reg r => cases h; exact .reg r
  | fn f => cases h; exact .fn f
  | const c => cases h; exact .const c

/-- A change of parameters only. -/
def Shifted (i : Nat) (op op' : Op) : Prop :=
  op.kind = op'.kind ∧ op.data = op'.data ∧ op.result = op'.result ∧
    List.Forall₂ (OperRel i 0) op.operands op'.operands

theorem renumberOp_shifted {n k : Nat} {op op' : Op}
    (h : renumberOp (renumber 0 (List.replicate n true ++ List.replicate k false)) op = some op') :
    Shifted n op op' := by
  unfold renumberOp at h
  simp only [Option.map_eq_some_iff] at h
  obtain ⟨os, h1, rfl⟩ := h
  exact ⟨rfl, rfl, rfl, mapM_forall h1 fun a _ b hb => renumberOperand_rel hb⟩

theorem shifted_refl (op : Op) : Shifted 0 op op := ⟨rfl, rfl, rfl, opers_refl _⟩

/-- The number of operands that calls of a function lose. -/
def lost (drop : Nat → Option Nat) (f : Nat) : Nat := (drop f).getD 0

theorem clean_head {drop : Nat → Option Nat} {op : Op}
    (hc : (op.kind = .call → ∀ o ∈ op.operands.tail, CleanOperand (fun f => (drop f).isSome) o) ∧
      (op.kind ≠ .call → ∀ o ∈ op.operands, CleanOperand (fun f => (drop f).isSome) o))
    (hf : op.kind = .call → ∀ f os, op.operands = .fn f :: os → drop f = none) :
    ∀ o ∈ op.operands, CleanOperand (fun f => (drop f).isSome) o := by
  intro o ho
  by_cases hk : op.kind = .call
  · cases hos : op.operands with
    | nil => simp [hos] at ho
    | cons x xs =>
      rw [hos] at ho
      rcases List.mem_cons.1 ho with rfl | ho
      · intro f hfo hsp
        subst hfo
        simp [hf hk f xs hos] at hsp
      · exact hc.1 hk o (by rw [hos]; exact ho)
  · exact hc.2 hk o ho

theorem narrow_rel {env : Env} {drop : Nat → Option Nat} {i : Nat} {op op1 op2 : Op}
    (hc : (op.kind = .call → ∀ o ∈ op.operands.tail, CleanOperand (fun f => (drop f).isSome) o) ∧
      (op.kind ≠ .call → ∀ o ∈ op.operands, CleanOperand (fun f => (drop f).isSome) o))
    (hs : Shifted i op op1) (h : narrowCall env drop op1 = some op2) :
    OpRel (fun f => (drop f).isSome) (lost drop) (fun _ => 0) i 0 op op2 := by
  obtain ⟨k, data, os, res⟩ := op
  obtain ⟨k1, data1, os1, res1⟩ := op1
  obtain ⟨rfl, rfl, rfl, ho⟩ := hs
  simp only at hc ho
  unfold narrowCall at h
  simp only at h
  have hplain : (k = .call → ∀ f t, os1 = .fn f :: t → drop f = none) →
      OpRel (fun f => (drop f).isSome) (lost drop) (fun _ => 0) i 0 ⟨k, data, os, res⟩
        ⟨k, data, os1, res⟩ := by
    intro hn
    refine .plain ho (clean_head (op := ⟨k, data, os, res⟩) hc ?_)
    intro hk f t hos
    simp only at hos
    subst hos
    cases ho with
    | cons hh ht =>
      cases hh
      exact hn hk f _ rfl
  split at h
  · rename_i hk
    cases h
    exact hplain fun hk' => absurd hk' hk
  · rename_i hk
    simp only [ne_eq, not_not] at hk
    split at h
    · exact absurd h (by simp)
    · rename_i f rest
      split at h
      · rename_i hd
        cases h
        refine hplain fun _ g t hg => ?_
        cases hg
        exact hd
      · rename_i count hd
        split at h
        · exact absurd h (by simp)
        · rename_i hlen
          generalize hst : (Operand.fn f :: rest).length - (env.visible data + 1) = start at h
          split at h
          · exact absurd h (by simp)
          · rename_i hstart
            push Not at hstart
            split at h
            · rename_i hall
              cases h
              obtain ⟨hne, hcount⟩ := hstart
              obtain ⟨s, rfl⟩ : ∃ s, start = s + 1 := ⟨start - 1, by omega⟩
              simp only [List.take_succ_cons, List.drop_succ_cons, List.drop_zero, List.take_zero,
                List.cons_append, List.nil_append, Nat.add_sub_cancel] at hall hcount ⊢
              have hconst : ∃ cs : List Nat, rest.take s = cs.map Operand.const := by
                revert hall
                generalize rest.take s = l
                intro hall
                induction l with
                | nil => exact ⟨[], rfl⟩
                | cons o t ih =>
                  rw [List.all_cons, Bool.and_eq_true] at hall
                  obtain ⟨cs, rfl⟩ := ih hall.2
                  cases o with
                  | const c => exact ⟨c :: cs, rfl⟩
                  | _ => exact absurd hall.1 (by simp)
              obtain ⟨cs, hcs⟩ := hconst
              have hcl : cs.length = s := by
                have := congrArg List.length hcs
                simp only [List.length_take, List.length_map, List.length_cons] at this hst
                omega
              cases ho with
              | @cons x _ xs _ hh ht =>
                cases hh
                rw [← List.take_append_drop s rest, hcs] at ht
                have h1 := List.forall₂_take_append _ _ _ ht
                have h2 := List.forall₂_drop_append _ _ _ ht
                simp only [List.length_map, hcl] at h1 h2
                have hx : xs.take s = cs.map Operand.const := by
                  revert h1
                  generalize xs.take s = l
                  intro h1
                  clear hcl hcs h2 ht
                  induction cs generalizing l with
                  | nil => cases h1; rfl
                  | cons c t ih =>
                    cases h1 with
                    | cons a b =>
                      cases a
                      rw [ih _ b]
                      rfl
                subst hk
                rw [← List.take_append_drop s xs, hx]
                have := OpRel.call (sp := fun f => (drop f).isSome = true) (nA := lost drop)
                  (nB := fun _ => 0) (i := i) (j := 0) (data := data) (f := f) (cA := cs) (cB := [])
                  (res := res) (by simp [hd]) (by simp [lost, hd, hcl, hcount]) rfl h2
                  (fun o ho => hc.1 rfl o (by
                    simp only [List.tail_cons]
                    exact List.mem_of_mem_drop ho))
                simpa using this
            · exact absurd h (by simp)
    · rename_i hnf
      cases h
      exact hplain fun _ f t he => by
        cases he
        exact absurd rfl (hnf f)

theorem shiftedBlocks {b b' : Body} {n k : Nat}
    (hd : b.dict = List.replicate n true ++ List.replicate k false)
    (h : removeParams b = some b') :
    b'.fn.params = k ∧ b'.dict = List.replicate k false ∧
    List.Forall₂ (fun x y : Block => List.Forall₂ (Shifted n) x.ops y.ops ∧
      ∃ t, renumberTerm (renumber 0 b.dict) x.term = some t ∧ y.term = t)
      b.fn.blocks b'.fn.blocks := by
  unfold removeParams at h
  simp only [Option.map_eq_some_iff] at h
  obtain ⟨blocks, h1, rfl⟩ := h
  have hfil : b.dict.filter (!·) = List.replicate k false := by
    rw [hd, List.filter_append]
    simp
  refine ⟨by simp [hfil], hfil, mapM_forall h1 ?_⟩
  intro x _ y hy
  simp only [Option.bind_eq_some_iff, Option.map_eq_some_iff] at hy
  obtain ⟨ops, h2, t, h3, rfl⟩ := hy
  exact ⟨mapM_forall h2 fun a _ c hc => renumberOp_shifted (hd ▸ hc), t, h3, rfl⟩

/-- A terminator without its operation. -/
def strip : Term → Term
  | .invoke _ n e => .goto (n + e)
  | t => t

theorem TermRel.of_strip {sp sp' : Nat → Prop} {nA nB nA' nB' : Nat → Nat} {i j : Nat} {x y : Term}
    (h : TermRel sp nA nB i j (strip x) (strip y)) (hx : ∀ op n e, x ≠ .invoke op n e)
    (hy : ∀ op n e, y ≠ .invoke op n e) : TermRel sp' nA' nB' i j x y := by
  cases x with
  | invoke op n e => exact absurd rfl (hx op n e)
  | goto t =>
    cases y with
    | invoke op n e => exact absurd rfl (hy op n e)
    | goto t' => simp only [strip] at h; cases h; exact .goto _
    | _ => simp only [strip] at h; cases h
  | condBr c a b =>
    cases y with
    | invoke op n e => exact absurd rfl (hy op n e)
    | condBr c' a' b' => simp only [strip] at h; cases h with | condBr h => exact .condBr h
    | _ => simp only [strip] at h; cases h
  | yield p t =>
    cases y with
    | invoke op n e => exact absurd rfl (hy op n e)
    | «yield» p' t' => simp only [strip] at h; cases h with | «yield» h => exact .yield h
    | _ => simp only [strip] at h; cases h
  | ret =>
    cases y with
    | invoke op n e => exact absurd rfl (hy op n e)
    | ret => exact .ret
    | _ => simp only [strip] at h; cases h
  | propagate =>
    cases y with
    | invoke op n e => exact absurd rfl (hy op n e)
    | propagate => exact .propagate
    | _ => simp only [strip] at h; cases h
  | failure =>
    cases y with
    | invoke op n e => exact absurd rfl (hy op n e)
    | failure => exact .failure
    | _ => simp only [strip] at h; cases h

/-- One body rewritten. -/
theorem rewrite_rel {env : Env} {drop : Nat → Option Nat} {own : Nat} {b b' : Body} {n k : Nat}
    (hown : own = n) (hpar : b.fn.params = n + k)
    (hd : n > 0 → b.dict = List.replicate n true ++ List.replicate k false)
    (hco : CalleeOnly (fun f => (drop f).isSome) b.fn)
    (h : rewrite env drop own b = some b') :
    FnRel (fun f => (drop f).isSome) (lost drop) (fun _ => 0) n 0 b.fn b'.fn := by
  subst hown
  unfold rewrite at h
  split at h
  · rename_i hz
    obtain ⟨rfl, hno⟩ := hz
    cases h
    refine ⟨⟨k, by omega, by omega⟩, List.forall₂_same.2 fun blk hb => ?_⟩
    have hop : ∀ op ∈ blk.ops ++ blk.term.invoked.toList,
        OpRel (fun f => (drop f).isSome) (lost drop) (fun _ => 0) 0 0 op op := by
      intro op ho
      refine .plain (opers_refl _) (clean_head (hco blk hb op ho) ?_)
      intro hk f os hos
      unfold bodyCallsNarrowed at hno
      have h1 := List.any_eq_false.1 hno blk hb
      have h2 := List.any_eq_false.1 (Bool.eq_false_iff.2 h1) op ho
      simpa [callsNarrowed, hk, hos] using h2
    refine ⟨List.forall₂_same.2 fun op ho => hop op (List.mem_append_left _ ho), ?_⟩
    cases ht : blk.term with
    | goto t => exact .goto t
    | condBr c a d => exact .condBr (OperRel.refl c)
    | invoke op a d =>
      exact .invoke (hop op (List.mem_append_right _ (by simp [ht, Term.invoked])))
    | ret => exact .ret
    | propagate => exact .propagate
    | failure => exact .failure
    | yield p t => exact .yield (OperRel.refl p)
  · simp only [Option.bind_eq_some_iff, Option.map_eq_some_iff] at h
    obtain ⟨b1, h1, blocks, h2, rfl⟩ := h
    have hmid : b1.fn.params = k ∧ List.Forall₂ (fun x y : Block =>
        List.Forall₂ (Shifted own) x.ops y.ops ∧
        TermRel (fun _ => False) (fun _ => 0) (fun _ => 0) own 0
          (strip x.term) (strip y.term) ∧
        (∀ op n e, x.term = .invoke op n e → ∃ op', y.term = .invoke op' n e ∧ Shifted own op op') ∧
        (∀ op n e, y.term = .invoke op n e → ∃ op', x.term = .invoke op' n e))
        b.fn.blocks b1.fn.blocks := by
      by_cases ho : own > 0
      · rw [if_pos ho] at h1
        obtain ⟨h3, -, h4⟩ := shiftedBlocks (hd ho) h1
        refine ⟨h3, h4.imp ?_⟩
        rintro x y ⟨h5, t, h6, h7⟩
        rw [hd ho] at h6
        subst h7
        refine ⟨h5, ?_⟩
        cases hx : x.term <;> rw [hx] at h6 <;> simp only [renumberTerm, Option.map_eq_some_iff,
          Option.some.injEq] at h6
        case goto => subst_vars; rw [← h6]; exact ⟨.goto _, by simp, by simp⟩
        case condBr =>
          obtain ⟨c', h8, h9⟩ := h6
          rw [← h9]
          exact ⟨.condBr (renumberOperand_rel h8), by simp, by simp⟩
        case invoke op n e =>
          obtain ⟨op', h8, h9⟩ := h6
          rw [← h9]
          refine ⟨.goto _, ?_, ?_⟩
          · intro op2 n2 e2 he
            cases he
            exact ⟨op', rfl, renumberOp_shifted h8⟩
          · intro op2 n2 e2 he
            cases he
            exact ⟨op, rfl⟩
        case ret => rw [← h6]; exact ⟨.ret, by simp, by simp⟩
        case propagate => rw [← h6]; exact ⟨.propagate, by simp, by simp⟩
        case failure => rw [← h6]; exact ⟨.failure, by simp, by simp⟩
        case yield =>
          obtain ⟨c', h8, h9⟩ := h6
          rw [← h9]
          exact ⟨.yield (renumberOperand_rel h8), by simp, by simp⟩
      · rw [if_neg ho] at h1
        cases h1
        have : own = 0 := by omega
        subst this
        refine ⟨by omega, List.forall₂_same.2 fun x _ =>
          ⟨List.forall₂_same.2 fun op _ => shifted_refl op, ?_, ?_, ?_⟩⟩
        · cases x.term with
          | goto t => exact .goto t
          | condBr c a d => exact .condBr (OperRel.refl c)
          | invoke op a d => exact .goto _
          | ret => exact .ret
          | propagate => exact .propagate
          | failure => exact .failure
          | yield p t => exact .yield (OperRel.refl p)
        · exact fun op n e he => ⟨op, he, shifted_refl op⟩
        · exact fun op n e he => ⟨op, he⟩
    obtain ⟨hp, hF⟩ := hmid
    refine ⟨⟨k, hpar, by simpa using hp⟩, ?_⟩
    have hN := mapM_forall (R := fun y z : Block => (y.ops.mapM (narrowCall env drop)) = some z.ops ∧
      narrowTerm env drop y.term = some z.term) h2 (by
        intro y _ z hz
        simp only [Option.bind_eq_some_iff, Option.map_eq_some_iff] at hz
        obtain ⟨ops, h3, t, h4, rfl⟩ := hz
        exact ⟨h3, h4⟩)
    simp only
    have hco' : ∀ blk ∈ b.fn.blocks, ∀ op ∈ blk.ops ++ blk.term.invoked.toList, _ := hco
    revert hN hF hco'
    generalize b.fn.blocks = X
    generalize b1.fn.blocks = Y
    intro hF hN hco'
    clear h2
    induction hF generalizing blocks with
    | nil => cases hN; exact .nil
    | @cons x y X Y hxy _ ih =>
      cases hN with
      | @cons _ z _ Z hyz hYZ =>
        refine .cons ⟨?_, ?_⟩ (ih Z hYZ fun blk hb => hco' blk (List.mem_cons_of_mem _ hb))
        · have hc := hco' x List.mem_cons_self
          obtain ⟨hops, -⟩ := hxy
          obtain ⟨hz, -⟩ := hyz
          have hc2 : ∀ op ∈ x.ops, _ := fun op ho => hc op (List.mem_append_left _ ho)
          revert hops hz hc2
          generalize x.ops = xo
          generalize y.ops = yo
          generalize z.ops = zo
          intro hops hz hc2
          induction hops generalizing zo with
          | nil =>
            simp only [List.mapM_nil, Option.pure_def, Option.some.injEq] at hz
            subst hz
            exact .nil
          | cons ho _ ih2 =>
            simp only [List.mapM_cons, Option.bind_eq_bind, Option.bind_eq_some_iff,
              Option.pure_def, Option.some.injEq] at hz
            obtain ⟨w, hw, ws, hws, rfl⟩ := hz
            exact .cons (narrow_rel (hc2 _ List.mem_cons_self) ho hw)
              (ih2 ws hws fun op ho => hc2 op (List.mem_cons_of_mem _ ho))
        · obtain ⟨-, ht, hi1, hi2⟩ := hxy
          obtain ⟨-, hz⟩ := hyz
          have hc := hco' x List.mem_cons_self
          by_cases hinv : ∃ op n e, x.term = .invoke op n e
          · obtain ⟨op, n, e, hx⟩ := hinv
            obtain ⟨op1, hy, hsh⟩ := hi1 op n e hx
            rw [hy] at hz
            simp only [narrowTerm, Option.map_eq_some_iff] at hz
            obtain ⟨op2, h8, h9⟩ := hz
            rw [hx, ← h9]
            exact .invoke (narrow_rel (hc op (List.mem_append_right _ (by simp [hx, Term.invoked])))
              hsh h8)
          · have hyn : ∀ op n e, y.term ≠ .invoke op n e := fun op n e he => by
              obtain ⟨op', h'⟩ := hi2 op n e he
              exact hinv ⟨op', n, e, h'⟩
            have hz' : z.term = y.term := by
              cases hy : y.term <;> rw [hy] at hz <;>
                first
                | exact absurd hy (hyn _ _ _)
                | (simp only [narrowTerm, Option.some.injEq] at hz; exact hz.symm)
            rw [hz']
            exact ht.of_strip (fun op n e he => hinv ⟨op, n, e, he⟩) hyn

end Ferlium.DeadEvidence
