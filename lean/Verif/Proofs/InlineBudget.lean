import Verif.Proofs.InlinePlan

/-!
# The plan: its order, its budget, and why it does not panic
-/

namespace Ferlium.Inline

/-! ## The order of the candidates -/

theorem zipIdx_pairwise {α : Type} : ∀ (l : List α) (k : Nat),
    (l.zipIdx k).Pairwise fun a b => a.2 < b.2
  | [], _ => by simp
  | a :: l, k => by
    rw [List.zipIdx_cons, List.pairwise_cons]
    refine ⟨fun p hp => ?_, zipIdx_pairwise l (k + 1)⟩
    obtain ⟨x, i⟩ := p
    have := List.mem_zipIdx hp
    simp only
    omega

theorem mem_candidates {F : Fn} {site : Site} {op : Op} (h : (site, op) ∈ candidates F) :
    CallAt F site op := by
  unfold candidates at h
  rw [List.mem_flatMap] at h
  obtain ⟨⟨blk, b⟩, hb, h⟩ := h
  have hblk : F.blocks[b]? = some blk := by
    simpa using List.mem_zipIdx_iff_getElem?.1 hb
  rw [List.mem_append, List.mem_map, List.mem_map] at h
  rcases h with ⟨⟨op', i⟩, hi, he⟩ | ⟨op', hi, he⟩
  · simp only [Prod.mk.injEq] at he
    obtain ⟨rfl, rfl⟩ := he
    exact ⟨blk, hblk, by simpa using List.mem_zipIdx_iff_getElem?.1 hi⟩
  · simp only [Prod.mk.injEq] at he
    obtain ⟨rfl, rfl⟩ := he
    simp only [Option.mem_toList] at hi
    cases ht : blk.term with
    | invoke op n e =>
      rw [ht] at hi
      simp only [Term.invoked, Option.mem_def, Option.some.injEq] at hi
      subst hi
      exact ⟨blk, n, e, hblk, ht⟩
    | _ => rw [ht] at hi; simp [Term.invoked] at hi

theorem candidates_pairwise (F : Fn) :
    (candidates F).Pairwise fun p q => Before p.1 q.1 := by
  unfold candidates
  rw [List.pairwise_flatMap]
  constructor
  · rintro ⟨blk, b⟩ -
    rw [List.pairwise_append, List.pairwise_map]
    refine ⟨(zipIdx_pairwise blk.ops 0).imp fun h => .inr ⟨rfl, h⟩, ?_, ?_⟩
    · cases blk.term <;> simp [Term.invoked]
    · intro x hx y hy
      simp only [List.mem_map] at hx hy
      obtain ⟨_, _, rfl⟩ := hx
      obtain ⟨_, _, rfl⟩ := hy
      exact Nat.le_refl _
  · refine (zipIdx_pairwise F.blocks 0).imp ?_
    rintro ⟨blk, b⟩ ⟨blk', b'⟩ hlt x hx y hy
    simp only [List.mem_append, List.mem_map] at hx hy hlt
    rcases hx with ⟨_, _, rfl⟩ | ⟨_, _, rfl⟩ <;> rcases hy with ⟨_, _, rfl⟩ | ⟨_, _, rfl⟩
    · exact .inl hlt
    · exact Nat.le_of_lt hlt
    · exact hlt
    · exact hlt

/-! ## The loop -/

/-- What a body costs. -/
def costOf (body : Fn) : Nat := opCount body + body.blocks.length + 1

theorem planLoop_spec {q : Callees} {cl : List Nat} {bound : Nat} :
    ∀ (l : List (Site × Op)) (size : Nat),
      ((planLoop q cl bound size l).map (·.1)).Sublist (l.map (·.1)) ∧
      (∀ p ∈ planLoop q cl bound size l, ∃ op cost, (p.1, op) ∈ l ∧
        consider q cl p.1 op = some (cost, p.2)) ∧
      (planLoop q cl bound size l = [] ∨
        size + ((planLoop q cl bound size l).map fun p => costOf p.2).sum ≤ bound)
  | [], size => ⟨by simp [planLoop], by simp [planLoop], .inl rfl⟩
  | (site, op) :: l, size => by
    rw [planLoop]
    cases hc : consider q cl site op with
    | none =>
      simp only
      obtain ⟨h1, h2, h3⟩ := planLoop_spec (q := q) (cl := cl) (bound := bound) l size
      refine ⟨h1.trans (by simp), fun p hp => ?_, h3⟩
      obtain ⟨op', cost, hm, hcons⟩ := h2 p hp
      exact ⟨op', cost, List.mem_cons_of_mem _ hm, hcons⟩
    | some cb =>
      obtain ⟨cost, body⟩ := cb
      simp only
      split
      · obtain ⟨h1, h2, h3⟩ := planLoop_spec (q := q) (cl := cl) (bound := bound) l size
        refine ⟨h1.trans (by simp), fun p hp => ?_, h3⟩
        obtain ⟨op', cost, hm, hcons⟩ := h2 p hp
        exact ⟨op', cost, List.mem_cons_of_mem _ hm, hcons⟩
      · rename_i hle
        obtain ⟨h1, h2, h3⟩ := planLoop_spec (q := q) (cl := cl) (bound := bound) l (size + cost)
        have hcost : cost = costOf body := by
          unfold consider at hc
          split at hc
          · exact absurd hc (by simp)
          · split at hc
            · split at hc
              · exact absurd hc (by simp)
              · split at hc
                · exact absurd hc (by simp)
                · split at hc
                  · exact absurd hc (by simp)
                  · split at hc
                    · exact absurd hc (by simp)
                    · split at hc
                      · exact absurd hc (by simp)
                      · split at hc
                        · exact absurd hc (by simp)
                        · simp only [Option.some.injEq, Prod.mk.injEq] at hc
                          rw [← hc.1, ← hc.2]
                          rfl
            · exact absurd hc (by simp)
        refine ⟨?_, ?_, .inr ?_⟩
        · simpa using h1
        · intro p hp
          rcases List.mem_cons.1 hp with rfl | hp
          · exact ⟨op, cost, List.mem_cons_self, hc⟩
          · obtain ⟨op', cost', hm, hcons⟩ := h2 p hp
            exact ⟨op', cost', List.mem_cons_of_mem _ hm, hcons⟩
        · simp only [List.map_cons, List.sum_cons]
          rcases h3 with h3 | h3
          · rw [h3]
            simp
            omega
          · omega

/-- Everything that `consider` has tested. -/
theorem consider_some {q : Callees} {cl : List Nat} {site : Site} {op : Op} {cost : Nat} {body : Fn}
    (h : consider q cl site op = some (cost, body)) :
    op.kind = .call ∧ q.driver op = false ∧ ∃ f os raw, op.operands = .fn f :: os ∧
      q.never f = false ∧ q.raw f = some raw ∧ opCount raw ≤ calleeLimit ∧
      checkInlinable raw site.hasError (cl.contains site.block) = none ∧
      q.concrete op raw = some body ∧ opCount body ≤ calleeLimit := by
  unfold consider at h
  split at h
  · exact absurd h (by simp)
  · rename_i hk
    push Not at hk
    split at h
    · rename_i f os hops
      split at h
      · exact absurd h (by simp)
      · rename_i hn
        split at h
        · exact absurd h (by simp)
        · rename_i raw hraw
          split at h
          · exact absurd h (by simp)
          · rename_i hlim
            split at h
            · exact absurd h (by simp)
            · rename_i hcheck
              split at h
              · exact absurd h (by simp)
              · rename_i body' hb
                split at h
                · exact absurd h (by simp)
                · rename_i hlim'
                  simp only [Option.some.injEq, Prod.mk.injEq] at h
                  obtain ⟨-, rfl⟩ := h
                  exact ⟨hk.1, by simpa using hk.2, f, os, raw, hops, by simpa using hn, hraw,
                    by omega, hcheck, hb, by omega⟩
    · exact absurd h (by simp)

/-! ## Sizes -/

theorem sum_modify {α : Type} (g : α → Nat) (f : α → α) : ∀ (l : List α) (i : Nat) (a : α),
    l[i]? = some a → ((l.modify i f).map g).sum + g a = (l.map g).sum + g (f a)
  | [], i, a, h => by simp at h
  | x :: l, 0, a, h => by
    simp only [List.getElem?_cons_zero, Option.some.injEq] at h
    subst h
    simp
    omega
  | x :: l, i + 1, a, h => by
    simp only [List.getElem?_cons_succ] at h
    have := sum_modify g f l i a h
    simp only [List.modify_succ_cons, List.map_cons, List.sum_cons]
    omega

theorem sum_set {α : Type} (g : α → Nat) (b : α) : ∀ (l : List α) (i : Nat) (a : α),
    l[i]? = some a → ((l.set i b).map g).sum + g a = (l.map g).sum + g b
  | [], i, a, h => by simp at h
  | x :: l, 0, a, h => by
    simp only [List.getElem?_cons_zero, Option.some.injEq] at h
    subst h
    simp
    omega
  | x :: l, i + 1, a, h => by
    simp only [List.getElem?_cons_succ] at h
    have := sum_set g b l i a h
    simp only [List.set_cons_succ, List.map_cons, List.sum_cons]
    omega

theorem copies_size {s : Splice} : ∀ {l l' : List Block}, l.mapM (copyBlock s) = some l' →
    (l'.map (·.ops.length)).sum ≤ (l.map (·.ops.length)).sum + l.length
  | [], l', h => by
    simp only [List.mapM_nil, Option.pure_def, Option.some.injEq] at h
    subst h
    simp
  | blk :: l, l', h => by
    rw [List.mapM_cons] at h
    simp only [Option.pure_def, Option.bind_eq_bind, Option.bind_eq_some_iff] at h
    obtain ⟨blk', hb, ys, hys, he⟩ := h
    simp only [Option.some.injEq] at he
    subst he
    have ih := copies_size hys
    obtain ⟨t, ht, -, hlen, -⟩ := copyBlock_term hb
    have h1 : t.1.length ≤ 1 := by
      cases hterm : blk.term <;> rw [hterm] at ht <;> simp only [copyTerm, Option.some.injEq,
        Option.map_eq_some_iff, reduceCtorEq] at ht
      · subst ht; simp
      · obtain ⟨_, _, rfl⟩ := ht; simp
      · obtain ⟨_, _, rfl⟩ := ht; simp
      · subst ht; simp
      · obtain ⟨_, _, rfl⟩ := ht; simp
      · subst ht; simp
    simp only [List.map_cons, List.sum_cons, List.length_cons]
    omega

theorem inlineAt_size {F body F' : Fn} {site : Site} (h : inlineAt F body site = some F') :
    opCount F' ≤ opCount F + costOf body := by
  unfold inlineAt at h
  simp only [Option.bind_eq_some_iff] at h
  obtain ⟨⟨call, blocks, normal, error⟩, hta, h⟩ := h
  simp only at h
  split at h
  · exact absurd h (by simp)
  · simp only [Option.map_eq_some_iff] at h
    obtain ⟨copies, hcopies, rfl⟩ := h
    have h1 := copies_size hcopies
    have h2 : ∃ blk, blocks[site.block]? = some blk ∧
        (blocks.map (·.ops.length)).sum ≤ (F.blocks.map (·.ops.length)).sum := by
      cases site with
      | op b i =>
        simp only [takeApart, Option.bind_eq_some_iff, Option.map_eq_some_iff] at hta
        obtain ⟨blk, hb, c, hc, he⟩ := hta
        simp only [Prod.mk.injEq] at he
        obtain ⟨rfl, rfl, rfl, rfl⟩ := he
        have hlt := getElem?_lt hb
        have hi := getElem?_lt hc
        refine ⟨⟨blk.ops.take i, blk.term⟩, ?_, ?_⟩
        · simp only [Site.block]
          rw [List.getElem?_append_left (by simpa using hlt), List.getElem?_set_self hlt]
        · have := sum_set (fun b : Block => b.ops.length) ⟨blk.ops.take i, blk.term⟩ F.blocks b blk hb
          simp only [List.length_take] at this
          simp only [List.map_append, List.sum_append, List.map_cons, List.map_nil, List.sum_cons,
            List.sum_nil, List.length_drop]
          omega
      | term b =>
        simp only [takeApart, Option.bind_eq_some_iff] at hta
        obtain ⟨blk, hb, hta⟩ := hta
        cases ht : blk.term with
        | invoke op n e =>
          rw [ht] at hta
          simp only [Option.some.injEq, Prod.mk.injEq] at hta
          obtain ⟨rfl, rfl, rfl, rfl⟩ := hta
          exact ⟨blk, hb, Nat.le_refl _⟩
        | _ => rw [ht] at hta; exact absurd hta (by simp)
    obtain ⟨blk, hb, h2⟩ := h2
    have h3 := sum_modify (fun b : Block => b.ops.length)
      (fun blk => ⟨blk.ops ++ [saveOp F.next], .goto blocks.length⟩) blocks site.block blk hb
    simp only [List.length_append, List.length_singleton] at h3
    unfold opCount costOf
    simp only [List.map_append, List.sum_append]
    unfold opCount
    omega

theorem inlineAll_size {F : Fn} : ∀ (l : List (Site × Fn)) {F' : Fn}, inlineAll F l = some F' →
    opCount F' ≤ opCount F + (l.map fun p => costOf p.2).sum
  | [], F', h => by
    simp only [inlineAll, Option.some.injEq] at h
    subst h
    simp
  | (site, body) :: l, F', h => by
    simp only [inlineAll, Option.bind_eq_some_iff] at h
    obtain ⟨F1, h1, h2⟩ := h
    have a := inlineAll_size l h1
    have b := inlineAt_size h2
    simp only [List.map_cons, List.sum_cons]
    omega

/-! ## No panic -/

/-- A body the copier can copy: every register it reads is the result of one of its operations,
every parameter exists, and there is no `yield`. -/
structure Copyable (body : Fn) : Prop where
  regs : ∀ blk ∈ body.blocks, ∀ op ∈ blk.ops ++ blk.term.invoked.toList, ∀ o ∈ op.operands,
    (∀ r, o = .reg r → r ∈ results body) ∧ ∀ p, o = .param p → p < body.params
  conds : ∀ blk ∈ body.blocks, ∀ c x y, blk.term = .condBr c x y →
    (∀ r, c = .reg r → r ∈ results body) ∧ ∀ p, c = .param p → p < body.params

theorem rename_some {body : Fn} {base r : Nat} (h : r ∈ results body) :
    ∃ r', rename body base r = some r' := by
  unfold rename
  cases hf : ((results body).zipIdx base).reverse.find? (fun p => p.1 == r) with
  | some p => exact ⟨p.2, rfl⟩
  | none =>
    exfalso
    rw [List.find?_eq_none] at hf
    obtain ⟨i, hi⟩ := List.getElem?_of_mem h
    have := hf (r, base + i) (by
      rw [List.mem_reverse, List.mem_zipIdx_iff_le_and_getElem?_sub]
      exact ⟨by simp, by simpa using hi⟩)
    simp at this

theorem copyOperand_some {args : List Operand} {ren : Reg → Option Reg} {o : Operand}
    (hr : ∀ r, o = .reg r → ∃ r', ren r = some r') (hp : ∀ p, o = .param p → p < args.length) :
    ∃ o', copyOperand args ren o = some o' := by
  cases o with
  | reg r => obtain ⟨r', h⟩ := hr r rfl; exact ⟨.reg r', by simp [copyOperand, h]⟩
  | param p => exact ⟨_, by simp only [copyOperand]; exact List.getElem?_eq_getElem (hp p rfl)⟩
  | fn f => exact ⟨_, rfl⟩
  | const c => exact ⟨_, rfl⟩

theorem mapM_some {α β : Type} {f : α → Option β} : ∀ {l : List α},
    (∀ a ∈ l, ∃ b, f a = some b) → ∃ l', l.mapM f = some l'
  | [], _ => ⟨[], rfl⟩
  | a :: l, h => by
    obtain ⟨b, hb⟩ := h a List.mem_cons_self
    obtain ⟨l', hl⟩ := mapM_some (l := l) fun x hx => h x (List.mem_cons_of_mem _ hx)
    exact ⟨b :: l', by rw [List.mapM_cons, hb, hl]; rfl⟩

theorem mem_results {body : Fn} {blk : Block} (hb : blk ∈ body.blocks) {op : Op}
    (ho : op ∈ blk.ops ++ blk.term.invoked.toList) {r : Reg} (hr : op.result = some r) :
    r ∈ results body := by
  unfold results
  rw [List.mem_flatMap]
  exact ⟨blk, hb, List.mem_filterMap.2 ⟨op, ho, hr⟩⟩

theorem copyOp_some {body : Fn} (hc : Copyable body) {s : Splice} {base : Nat}
    (hren : s.ren = rename body base) (hlen : s.args.length = body.params) {blk : Block}
    (hb : blk ∈ body.blocks) {op : Op} (ho : op ∈ blk.ops ++ blk.term.invoked.toList) :
    ∃ op', copyOp s.args s.ren op = some op' := by
  obtain ⟨os, hos⟩ : ∃ os, op.operands.mapM (copyOperand s.args s.ren) = some os := by
    apply mapM_some
    intro o hoo
    obtain ⟨h1, h2⟩ := hc.regs blk hb op ho o hoo
    exact copyOperand_some (fun r hr => by rw [hren]; exact rename_some (h1 r hr))
      (fun p hp => by rw [hlen]; exact h2 p hp)
  obtain ⟨r, hr⟩ : ∃ r, copyResult s.ren op.result = some r := by
    cases hres : op.result with
    | none => exact ⟨none, rfl⟩
    | some r =>
      obtain ⟨r', hr'⟩ := rename_some (base := base) (mem_results hb ho hres)
      exact ⟨some r', by simp [copyResult, hren, hr']⟩
  exact ⟨_, by unfold copyOp; rw [hos, hr]; rfl⟩

theorem copyBlock_some {body : Fn} (hc : Copyable body) {s : Splice} {base : Nat}
    (hren : s.ren = rename body base) (hlen : s.args.length = body.params) {blk : Block}
    (hb : blk ∈ body.blocks) (hy : ∀ p t, blk.term ≠ .yield p t)
    (he : blk.term = .propagate → ∃ e, s.error = some e) : ∃ blk', copyBlock s blk = some blk' := by
  obtain ⟨ops, hops⟩ : ∃ ops, blk.ops.mapM (copyOp s.args s.ren) = some ops :=
    mapM_some fun op ho => copyOp_some hc hren hlen hb (List.mem_append_left _ ho)
  obtain ⟨t, ht⟩ : ∃ t, copyTerm s blk.term = some t := by
    cases hterm : blk.term with
    | goto t => exact ⟨_, rfl⟩
    | condBr c x y =>
      obtain ⟨h1, h2⟩ := hc.conds blk hb c x y hterm
      obtain ⟨c', hc'⟩ := copyOperand_some (args := s.args) (ren := s.ren)
        (fun r hr => by rw [hren]; exact rename_some (h1 r hr))
        (fun p hp => by rw [hlen]; exact h2 p hp)
      exact ⟨_, by rw [copyTerm, hc']; rfl⟩
    | invoke op n e =>
      obtain ⟨op', hop⟩ := copyOp_some hc hren hlen hb (op := op) (by simp [hterm, Term.invoked])
      exact ⟨_, by rw [copyTerm, hop]; rfl⟩
    | ret => exact ⟨_, rfl⟩
    | propagate =>
      obtain ⟨e, he⟩ := he hterm
      exact ⟨_, by rw [copyTerm, he]; rfl⟩
    | failure => exact ⟨_, rfl⟩
    | «yield» p t => exact absurd hterm (hy p t)
  exact ⟨_, by unfold copyBlock; rw [hops, ht]; rfl⟩

theorem inlineAt_some {F body : Fn} {site : Site} {call : Op} (h : CallAt F site call)
    (hlen : (call.operands.drop 1).length = body.params) (hne : body.blocks ≠ [])
    (hc : Copyable body) (hy : ∀ blk ∈ body.blocks, ∀ p t, blk.term ≠ .yield p t)
    (he : ∀ blk ∈ body.blocks, blk.term = .propagate → site.hasError = true) :
    ∃ F', inlineAt F body site = some F' := by
  obtain ⟨blocks, normal, error, hta, herr⟩ : ∃ blocks normal error,
      takeApart F site = some (call, blocks, normal, error) ∧
      (site.hasError = true → ∃ e, error = some e) := by
    cases site with
    | op b i =>
      obtain ⟨blk, hb, hi⟩ := h
      exact ⟨_, _, _, by simp only [takeApart, hb, hi, Option.bind_some, Option.map_some]; rfl,
        by simp [Site.hasError]⟩
    | term b =>
      obtain ⟨blk, n, e, hb, ht⟩ := h
      exact ⟨_, _, _, by simp only [takeApart, hb, ht, Option.bind_some]; rfl, fun _ => ⟨e, rfl⟩⟩
  obtain ⟨copies, hcop⟩ : ∃ copies,
      body.blocks.mapM (copyBlock (spliceAt F body call blocks normal error)) = some copies :=
    mapM_some fun blk hb => copyBlock_some hc rfl hlen hb (hy blk hb)
      (fun hp => herr (he blk hb hp))
  unfold inlineAt
  rw [hta]
  simp only [Option.bind_some, hlen, ne_eq, not_true_eq_false, hne, or_self, if_false, hcop,
    Option.map_some]
  exact ⟨_, rfl⟩

theorem inlineAll_some {F : Fn} : ∀ (l : List (Site × Fn)),
    (∀ p ∈ l, ∃ call, CallAt F p.1 call ∧ (call.operands.drop 1).length = p.2.params ∧
      p.2.blocks ≠ [] ∧ Copyable p.2 ∧ (∀ blk ∈ p.2.blocks, ∀ o t, blk.term ≠ .yield o t) ∧
      (∀ blk ∈ p.2.blocks, blk.term = .propagate → p.1.hasError = true)) →
    l.Pairwise (fun p q => Before p.1 q.1) →
    ∃ F', inlineAll F l = some F' ∧
      ∀ site, (∀ p ∈ l, Before site p.1) → ∀ c, CallAt F site c → CallAt F' site c
  | [], _, _ => ⟨F, rfl, fun _ _ _ h => h⟩
  | (site, body) :: l, h, hpw => by
    rw [List.pairwise_cons] at hpw
    obtain ⟨F1, h1, hkeep⟩ := inlineAll_some l (fun p hp => h p (List.mem_cons_of_mem _ hp)) hpw.2
    obtain ⟨call, hc, hlen, hne, hcop, hy, he⟩ := h (site, body) List.mem_cons_self
    obtain ⟨F2, h2⟩ := inlineAt_some (hkeep site hpw.1 call hc) hlen hne hcop hy he
    refine ⟨F2, by simp only [inlineAll, h1, Option.bind_some, h2], fun first hf c hcc => ?_⟩
    obtain ⟨call', s, g', -⟩ := glue_of_inlineAt h2
    exact g'.callAt (hf (site, body) List.mem_cons_self)
      (hkeep first (fun p hp => hf p (List.mem_cons_of_mem _ hp)) c hcc)

end Ferlium.Inline
