import Verif.Proofs.InlineBudget

/-!
# C93: inlining keeps what a program does
-/

namespace Ferlium.Inline

variable {P V C W E : Type}

/-- Whether a body holds an operation of a kind, as an ordinary operation or at the end of a
block. -/
def Holds (body : Fn) (k : Kind) : Prop :=
  ∃ blk ∈ body.blocks, (∃ op ∈ blk.ops, op.kind = k) ∨ ∃ op n e, blk.term = .invoke op n e ∧ op.kind = k

/-- Whether a body holds an ordinary operation of a kind. -/
def HoldsPlain (body : Fn) (k : Kind) : Prop := ∃ blk ∈ body.blocks, ∃ op ∈ blk.ops, op.kind = k

/-- Whether a body can end with an error, or handle one. -/
def Errs (body : Fn) : Prop :=
  ∃ blk ∈ body.blocks, (∃ op n e, blk.term = .invoke op n e) ∨ blk.term = .propagate ∨
    blk.term = .failure

theorem errorFlow_iff {body : Fn} : errorFlow body = true ↔ Errs body := by
  unfold errorFlow Errs
  rw [List.any_eq_true]
  refine exists_congr fun blk => and_congr_right fun _ => ?_
  cases blk.term <;> simp [Term.errorFlow]

/-- What the pass relies on from the rest of the compiler. -/
structure Sound (q : Callees) (tab : Nat → Option Fn) (g : Nat) (F : Fn) : Prop where
  /-- The body to copy is the body a call would run. -/
  body : ∀ op f os raw body, op.operands = .fn f :: os → q.raw f = some raw →
    q.concrete op raw = some body → tab f = some body
  /-- Replacing the type variables of a body brings no error that was not there. -/
  errs : ∀ op raw body, q.concrete op raw = some body → Errs body → Errs raw
  /-- Bodies are well formed, and do not return with an error in flight. -/
  formed : ∀ op f raw body, q.raw f = some raw → q.concrete op raw = some body →
    Targets body ∧ NoReturnAfterError body
  /-- A function that calls itself tests the depth. -/
  tested : ∀ site op os raw, CallAt F site op → op.operands = .fn g :: os → q.raw g = some raw →
    HoldsPlain raw .checkDepth

/-- **Which bodies are admitted**: exactly those with a block, without `yield`, without an ordinary
projection or test of the depth, that have no error flow when an error is in flight at the call, and
that propagate an error only where the call can. -/
theorem C93_admitted (body : Fn) (hasError inCleanup : Bool) :
    checkInlinable body hasError inCleanup = none ↔
      body.blocks ≠ [] ∧ (∀ blk ∈ body.blocks, ∀ p t, blk.term ≠ .yield p t) ∧
      ¬ HoldsPlain body .project ∧ ¬ HoldsPlain body .endProject ∧ ¬ HoldsPlain body .checkDepth ∧
      (Errs body → inCleanup = false) ∧
      ((∃ blk ∈ body.blocks, blk.term = .propagate) → hasError = true) := by
  have hblk : ∀ blk : Block, checkBlock blk = none ↔ (∀ p t, blk.term ≠ .yield p t) ∧
      ∀ op ∈ blk.ops, op.kind ≠ .project ∧ op.kind ≠ .endProject ∧ op.kind ≠ .checkDepth := by
    rintro ⟨ops, t⟩
    have h1 : (ops.any fun o => o.kind == .project || o.kind == .endProject) = true ↔
        ∃ op ∈ ops, op.kind = .project ∨ op.kind = .endProject := by simp [List.any_eq_true]
    have h2 : (ops.any fun o => o.kind == .checkDepth) = true ↔
        ∃ op ∈ ops, op.kind = .checkDepth := by simp [List.any_eq_true]
    have h3 : (∀ op ∈ ops, op.kind ≠ .project ∧ op.kind ≠ .endProject ∧ op.kind ≠ .checkDepth) ↔
        ¬ (∃ op ∈ ops, op.kind = .project ∨ op.kind = .endProject) ∧
        ¬ ∃ op ∈ ops, op.kind = .checkDepth := by
      push Not
      exact ⟨fun h => ⟨fun o ho => ⟨(h o ho).1, (h o ho).2.1⟩, fun o ho => (h o ho).2.2⟩,
        fun h o ho => ⟨(h.1 o ho).1, (h.1 o ho).2, h.2 o ho⟩⟩
    unfold checkBlock
    rw [h3, ← h1, ← h2]
    cases t <;> simp only [Bool.true_or, Bool.false_or, if_true] <;>
      cases (ops.any fun o => o.kind == .project || o.kind == .endProject) <;>
      cases (ops.any fun o => o.kind == .checkDepth) <;> simp
  have hall : body.blocks.findSome? checkBlock = none ↔
      ∀ blk ∈ body.blocks, (∀ p t, blk.term ≠ .yield p t) ∧
      ∀ op ∈ blk.ops, op.kind ≠ .project ∧ op.kind ≠ .endProject ∧ op.kind ≠ .checkDepth := by
    rw [List.findSome?_eq_none_iff]
    exact forall₂_congr fun blk _ => hblk blk
  have hshape : (∀ blk ∈ body.blocks, (∀ p t, blk.term ≠ .yield p t) ∧
      ∀ op ∈ blk.ops, op.kind ≠ .project ∧ op.kind ≠ .endProject ∧ op.kind ≠ .checkDepth) ↔
      ((∀ blk ∈ body.blocks, ∀ p t, blk.term ≠ .yield p t) ∧ ¬ HoldsPlain body .project ∧
        ¬ HoldsPlain body .endProject ∧ ¬ HoldsPlain body .checkDepth) := by
    unfold HoldsPlain
    push Not
    constructor
    · intro h
      exact ⟨fun blk hb => (h blk hb).1, fun blk hb op ho => ((h blk hb).2 op ho).1,
        fun blk hb op ho => ((h blk hb).2 op ho).2.1, fun blk hb op ho => ((h blk hb).2 op ho).2.2⟩
    · rintro ⟨h1, h2, h3, h4⟩ blk hb
      exact ⟨h1 blk hb, fun op ho => ⟨h2 blk hb op ho, h3 blk hb op ho, h4 blk hb op ho⟩⟩
  have hprop : propagates body = true ↔ ∃ blk ∈ body.blocks, blk.term = .propagate := by
    unfold propagates
    simp
  unfold checkInlinable
  by_cases hne : body.blocks = []
  · simp [hne]
  · have hemp : body.blocks.isEmpty = false := by
      cases hb : body.blocks with
      | nil => exact absurd hb hne
      | cons => rfl
    rw [hemp]
    simp only [Bool.false_eq_true, if_false, hne, ne_eq, not_false_eq_true, true_and]
    cases hf : body.blocks.findSome? checkBlock with
    | some r =>
      simp only [reduceCtorEq, false_iff]
      rintro ⟨h1, h2, h3, h4, -⟩
      have := hall.2 (hshape.2 ⟨h1, h2, h3, h4⟩)
      rw [hf] at this
      exact absurd this (by simp)
    | none =>
      obtain ⟨s1, s2, s3, s4⟩ := hshape.1 (hall.1 hf)
      simp only [s1, s2, s3, s4, not_false_eq_true, true_and]
      rw [← errorFlow_iff, ← hprop]
      cases errorFlow body <;> cases inCleanup <;> cases propagates body <;> cases hasError <;> simp
      all_goals exact s1

/-- **Blocks after an error**: the set is exactly the blocks reached after an error edge. -/
theorem C93_cleanup_exact {F : Fn} {cl : List Nat} (h : cleanupBlocks F = some cl) (b : Nat) :
    b ∈ cl ↔ AfterError F b := cleanupBlocks_exact h b

/-- **The search for them ends.** -/
theorem C93_cleanup_ends {F : Fn} (h : Targets F) : ∃ cl, cleanupBlocks F = some cl :=
  cleanupBlocks_total h

theorem plan_fits {q : Callees} {tab : Nat → Option Fn} {g : Nat} {F : Fn} {cl : List Nat}
    (hcl : cleanupBlocks F = some cl) (hq : Sound q tab g F) {size bound : Nat} :
    ∀ p ∈ planLoop q cl bound size (candidates F), Fits tab g F (fun b => b ∉ cl) p.1 p.2 := by
  intro p hp
  obtain ⟨op, cost, hm, hc⟩ := (planLoop_spec (candidates F) size).2.1 p hp
  obtain ⟨hk, -, f, os, raw, hops, -, hraw, -, hcheck, hconc, -⟩ := consider_some hc
  obtain ⟨-, -, -, -, hnd, herr, -⟩ := (C93_admitted _ _ _).1 hcheck
  obtain ⟨hT, hR⟩ := hq.formed op f raw p.2 hraw hconc
  refine ⟨⟨op, f, os, mem_candidates hm, hk, hops, ?_, hq.body op f os raw p.2 hops hraw hconc⟩,
    hT, hR, fun hf => ?_⟩
  · rintro rfl
    exact hnd (hq.tested p.1 op os raw (mem_candidates hm) hops hraw)
  · have := herr (hq.errs op raw p.2 hconc (errorFlow_iff.1 hf))
    intro hmem
    simp only [List.contains_eq_mem, decide_eq_false_iff_not] at this
    exact this hmem

theorem plan_order {q : Callees} {F : Fn} {cl : List Nat} {size bound : Nat} :
    (planLoop q cl bound size (candidates F)).Pairwise fun p q => Before p.1 q.1 := by
  have h1 := (planLoop_spec (q := q) (cl := cl) (bound := bound) (candidates F) size).1
  have h2 : ((candidates F).map (·.1)).Pairwise Before := by
    rw [List.pairwise_map]
    exact candidates_pairwise F
  have h3 := h2.sublist h1
  rwa [List.pairwise_map] at h3

/-- **A call and its copy**: in a program in which one function is replaced by its inlined form,
every call that ends without meeting the limit on the depth ends in the same way, with the same
errors, the same memory and the same effects, from the same depth or a smaller one.

Partial: scoped projections have no runs here, bindings are passed as they are, replacing the type
variables of a body is not modelled, and calls that do not end are not compared. -/
theorem C93_inlining_keeps_runs_partial {q : Callees} {tab : Nat → Option Fn} {g : Nat} {F F' : Fn}
    {original : Nat} (sem : Sem P V C W E) (hF : tab g = some F) (hn : NamesBelow F)
    (ht : Targets F) (hq : Sound q tab g F) (h : inlineFunction q F original = some F')
    {d f : Nat} {args : List (View P V)} {m : Mem C W} {r : Out P V C W E}
    (hrun : Run sem tab (.func d f args m) r) (hr : r ≠ .deep) {d' : Nat} (hd : d' ≤ d) :
    Run sem (Function.update tab g (some F')) (.func d' f args m) r := by
  unfold inlineFunction plan at h
  simp only [Option.bind_eq_some_iff, Option.map_eq_some_iff] at h
  obtain ⟨l, ⟨cl, hcl, rfl⟩, h⟩ := h
  have hcalm : Calm F (fun b => b ∉ cl) := by
    constructor
    · intro b blk op n e hb hterm hc
      exact hc ((cleanupBlocks_exact hcl e).2 (.edge hb hterm))
    · intro b blk t hb hterm hc hbc
      exact hc ((cleanupBlocks_exact hcl t).2 (((cleanupBlocks_exact hcl b).1 hbc).step hb hterm))
  exact (inlineAll_stage (sem := sem) hF hn ht hcalm (fun d f args m r h hr => shallower h hr) _
    (plan_fits hcl hq) plan_order F' h).1.runs d f args m r hrun hr d' hd

/-- **Growth**: the function has at most as many operations as its budget allows, unless it is left
as it was. -/
theorem C93_growth {q : Callees} {F F' : Fn} {original : Nat}
    (h : inlineFunction q F original = some F') :
    F' = F ∨ (F'.blocks.map (·.ops.length)).sum ≤ original + 128 := by
  unfold inlineFunction plan at h
  simp only [Option.bind_eq_some_iff, Option.map_eq_some_iff] at h
  obtain ⟨l, ⟨cl, hcl, rfl⟩, h⟩ := h
  rcases (planLoop_spec (q := q) (cl := cl) (bound := original + growthLimit) (candidates F)
    (opCount F)).2.2 with h0 | h0
  · rw [h0] at h
    simp only [inlineAll, Option.some.injEq] at h
    exact .inl h.symm
  · right
    have := inlineAll_size _ h
    unfold opCount growthLimit at *
    omega

/-- **Small callees**: what is copied is the body of a called function that may be copied and has at
most 32 operations, before and after its types are known. -/
theorem C93_small_callees {q : Callees} {F : Fn} {original : Nat} {l : List (Site × Fn)}
    (h : plan q F original = some l) : ∀ p ∈ l, (p.2.blocks.map (·.ops.length)).sum ≤ 32 ∧
      ∃ op f os raw, CallAt F p.1 op ∧ op.operands = .fn f :: os ∧ q.never f = false ∧ q.raw f = some raw ∧
        q.concrete op raw = some p.2 ∧ (raw.blocks.map (·.ops.length)).sum ≤ 32 := by
  intro p hp
  unfold plan at h
  obtain ⟨cl, -, rfl⟩ := Option.map_eq_some_iff.1 h
  obtain ⟨op, cost, hm, hc⟩ := (planLoop_spec (candidates F) _).2.1 p hp
  obtain ⟨-, -, f, os, raw, hops, hnev, hraw, hl1, -, hco, hl2⟩ := consider_some hc
  unfold opCount calleeLimit at hl1 hl2
  exact ⟨hl2, op, f, os, raw, mem_candidates hm, hops, hnev, hraw, hco, hl1⟩

/-- **No panic**: on well-formed functions whose calls pass as many arguments as there are
parameters, the pass ends with a function. -/
theorem C93_inlining_ends {q : Callees} {F : Fn} (original : Nat) (ht : Targets F)
    (hconc : ∀ op raw body, q.concrete op raw = some body → Copyable body ∧
      (body.blocks = [] → raw.blocks = []) ∧
      ((∃ blk ∈ body.blocks, blk.term = .propagate) → ∃ blk ∈ raw.blocks, blk.term = .propagate) ∧
      ((∃ blk ∈ body.blocks, ∃ p t, blk.term = .yield p t) →
        ∃ blk ∈ raw.blocks, ∃ p t, blk.term = .yield p t))
    (hargs : ∀ site op f os raw body, CallAt F site op → op.operands = .fn f :: os →
      q.raw f = some raw → q.concrete op raw = some body → os.length = body.params) :
    ∃ F', inlineFunction q F original = some F' := by
  obtain ⟨cl, hcl⟩ := cleanupBlocks_total ht
  unfold inlineFunction plan
  rw [hcl]
  simp only [Option.map_some, Option.bind_some]
  refine (inlineAll_some _ (fun p hp => ?_) plan_order).imp fun F' h => h.1
  obtain ⟨op, cost, hm, hc⟩ := (planLoop_spec (candidates F) _).2.1 p hp
  obtain ⟨hk, -, f, os, raw, hops, -, hraw, -, hcheck, hco, -⟩ := consider_some hc
  obtain ⟨hne, hy, -, -, -, -, hpr⟩ := (C93_admitted _ _ _).1 hcheck
  obtain ⟨h1, h2, h3, h4⟩ := hconc op raw p.2 hco
  refine ⟨op, mem_candidates hm, ?_, fun h => hne (h2 h), h1, ?_, ?_⟩
  · rw [hops]
    exact hargs p.1 op f os raw p.2 (mem_candidates hm) hops hraw hco
  · intro blk hb o t hbt
    obtain ⟨blk', hb', o', t', h'⟩ := h4 ⟨blk, hb, o, t, hbt⟩
    exact hy blk' hb' o' t' h'
  · exact fun blk hb hbt => hpr (h3 ⟨blk, hb, hbt⟩)

/-- **Scoped accessors are not kept out**: the comment on the test says that a body with a scoped
accessor is never handed to the replacement of type variables. A projection that can fail stands at
the end of a block, where the test does not look. -/
theorem C93_scoped_excluded_violated :
    ¬ ∀ (body : Fn) (hasError inCleanup : Bool), checkInlinable body hasError inCleanup = none →
      ¬ Holds body .project ∧ ¬ Holds body .endProject := by
  intro h
  have := (h ⟨1, [⟨[], .invoke ⟨.project, 0, [.fn 5, .param 0], some 0⟩ 1 3⟩,
    ⟨[], .invoke ⟨.endProject, 0, [.reg 0], none⟩ 2 3⟩, ⟨[], .ret⟩, ⟨[], .propagate⟩], 1⟩ true false
    (by decide)).1
  exact this ⟨_, List.mem_cons_self, .inr ⟨_, _, _, rfl, rfl⟩⟩

/-! ## A program -/

namespace Example

/-- `other 0` appends its argument's constant to the stack and to the world; `other 1` fails. -/
def sem : Sem Nat Nat Nat (List Nat) Nat where
  op := fun k _ vs m => match k, vs with
    | .other 0, [.const c] => .done (.ok [] (some (.place m.env.length)) ⟨m.env ++ [c], c :: m.world⟩)
    | _, _ => .done (.fail [] 7 m)
  test := fun _ _ => some true
  combine := fun a _ => a
  limit := 10

/-- Function 1: records its argument and then fails. -/
def callee : Fn := ⟨1, [⟨[⟨.other 0, 0, [.param 0], some 0⟩], .invoke ⟨.other 1, 0, [.reg 0], none⟩ 1 2⟩,
  ⟨[], .ret⟩, ⟨[], .propagate⟩], 1⟩

/-- Function 0: records 4, calls function 1 with 5, and hands on its error after recording 6. -/
def caller : Fn := ⟨0, [⟨[⟨.other 0, 0, [.const 4], some 0⟩], .invoke ⟨.call, 0, [.fn 1, .const 5], none⟩ 1 2⟩,
  ⟨[], .ret⟩, ⟨[⟨.other 0, 0, [.const 6], some 1⟩], .propagate⟩], 2⟩

/-- The program. -/
def tab : Nat → Option Fn
  | 0 => some caller
  | 1 => some callee
  | _ => none

/-- The bodies as the planner sees them. -/
def callees : Callees where
  never := fun _ => false
  driver := fun _ => false
  raw := fun f => if f = 1 then some callee else none
  concrete := fun _ b => if b = callee then some callee else none

/-- Function 0 after the pass. -/
def inlined : Fn := ⟨0, [⟨[⟨.other 0, 0, [.const 4], some 0⟩, saveOp 2], .goto 3⟩,
  ⟨[], .ret⟩, ⟨[⟨.other 0, 0, [.const 6], some 1⟩], .propagate⟩,
  ⟨[⟨.other 0, 0, [.const 5], some 3⟩], .invoke ⟨.other 1, 0, [.reg 3], none⟩ 4 5⟩,
  ⟨[restoreOp 2], .goto 1⟩, ⟨[restoreOp 2], .goto 2⟩], 4⟩

theorem pass : inlineFunction callees caller 1 = some inlined := by decide

theorem targets_of (F : Fn) (h : ∀ blk ∈ F.blocks, ∀ t ∈ blk.term.succs, t < F.blocks.length) :
    Targets F := fun blk hb t ht => h blk hb t (leads_iff.1 ht)

theorem caller_targets : Targets caller := targets_of _ (by decide)

theorem callee_targets : Targets callee := targets_of _ (by decide)

theorem caller_names : NamesBelow caller := by
  intro blk hb
  simp only [caller, List.mem_cons, List.not_mem_nil, or_false] at hb
  rcases hb with rfl | rfl | rfl <;>
    simp [Term.invoked, Operand.below, caller]

theorem callee_ret : NoReturnAfterError callee := by
  have hcl : cleanupBlocks callee = some [2] := by decide
  intro b blk hb ht hA
  have := (cleanupBlocks_exact hcl b).2 hA
  simp only [List.mem_singleton] at this
  subst this
  simp only [callee, List.getElem?_cons_succ, List.getElem?_cons_zero, Option.some.injEq] at hb
  subst hb
  exact absurd ht (by simp)

theorem sound : Sound callees tab 0 caller := by
  refine ⟨?_, ?_, ?_, ?_⟩
  · intro op f os raw body _ hraw hc
    simp only [callees] at hraw hc
    split at hraw
    · rename_i hf
      subst hf
      cases hraw
      simp only [if_true, Option.some.injEq] at hc
      subst hc
      rfl
    · exact absurd hraw (by simp)
  · intro op raw body hc h
    simp only [callees] at hc
    split at hc
    · rename_i hr
      cases hc
      rw [hr]
      exact h
    · exact absurd hc (by simp)
  · intro op f raw body _ hc
    simp only [callees] at hc
    split at hc
    · cases hc
      exact ⟨callee_targets, callee_ret⟩
    · exact absurd hc (by simp)
  · intro site op os raw _ _ hraw
    simp [callees] at hraw

/-- The call fails with the error 7 after recording 4, 5 and 6; the stack is as it was. -/
theorem run : Run sem tab (.func 0 0 [] ⟨[9], []⟩) (.err 7 ⟨[9], [6, 5, 4]⟩) := by
  refine Run.func (F := caller) (r := .err 7 ⟨[9, 4, 6], [6, 5, 4]⟩) rfl rfl ?_
  refine Run.opOk (blk := _) (op := _) rfl rfl rfl (.plain rfl rfl .progOk) ?_
  refine Run.invokeFail (blk := ⟨[_], _⟩) rfl rfl rfl (backs := []) (err := 7)
    (m' := ⟨[9, 4], [5, 4]⟩) (vs := [.fn 1, .const 5]) ?_ rfl ?_
  · refine Run.direct (r := .err 7 ⟨[9, 4], [5, 4]⟩) rfl rfl ?_
    refine Run.func (F := callee) (r := .err 7 ⟨[9, 4, 5], [5, 4]⟩) rfl rfl ?_
    refine Run.opOk (blk := _) (op := _) rfl rfl rfl (.plain rfl rfl .progOk) ?_
    refine Run.invokeFail (blk := ⟨[_], _⟩) rfl rfl rfl (.plain rfl rfl .progFail) rfl ?_
    exact Run.propagate (blk := ⟨[], _⟩) rfl rfl rfl rfl
  · refine Run.opOk (blk := _) (op := _) rfl rfl rfl (.plain rfl rfl .progOk) ?_
    exact Run.propagate (blk := ⟨[_], _⟩) rfl rfl rfl rfl

/-- All that the theorem asks for holds here, and so the inlined program ends in the same way. -/
example : Run sem (Function.update tab 0 (some inlined)) (.func 0 0 [] ⟨[9], []⟩)
    (.err 7 ⟨[9], [6, 5, 4]⟩) :=
  C93_inlining_keeps_runs_partial sem rfl caller_names caller_targets sound pass run (by simp)
    (Nat.le_refl _)

/-- A site with an error in flight: the callee has error flow and is refused. -/
example : checkInlinable callee true true = some .cleanup ∧ checkInlinable callee true false = none ∧
    cleanupBlocks caller = some [2] := by decide

/-- The pass ends here, and within the budget. -/
example : (∃ F', inlineFunction callees caller 1 = some F') ∧
    (inlined.blocks.map (·.ops.length)).sum = 6 := ⟨⟨_, pass⟩, rfl⟩

/-- The site chosen here is of a small callee. -/
example : ∃ l, plan callees caller 1 = some l ∧ l ≠ [] ∧ ∀ p ∈ l, (p.2.blocks.map (·.ops.length)).sum ≤ 32 := by
  have h : (plan callees caller 1).map (·.length) = some 1 := by decide +kernel
  obtain ⟨l, h1, h2⟩ := Option.map_eq_some_iff.1 h
  exact ⟨l, h1, by rintro rfl; simp at h2, fun p hp => (C93_small_callees h1 p hp).1⟩

end Example

end Ferlium.Inline
