import Verif.Proofs.InlineRun

/-!
# Blocks after an error, many sites, and the budget
-/

namespace Ferlium.Inline

/-! ## The worklist of blocks after an error -/

/-- Where control can go at the end of a block. -/
inductive Leads : Term → Nat → Prop
  | goto {t : Nat} : Leads (.goto t) t
  | yes {c : Operand} {a b : Nat} : Leads (.condBr c a b) a
  | no {c : Operand} {a b : Nat} : Leads (.condBr c a b) b
  | normal {op : Op} {n e : Nat} : Leads (.invoke op n e) n
  | error {op : Op} {n e : Nat} : Leads (.invoke op n e) e
  | resume {p : Operand} {t : Nat} : Leads (.yield p t) t

theorem leads_iff {t : Term} {u : Nat} : Leads t u ↔ u ∈ t.succs := by
  constructor
  · intro h
    cases h <;> simp [Term.succs]
  · intro h
    cases t <;> simp only [Term.succs, List.mem_cons, List.not_mem_nil, or_false] at h
    · subst h; exact .goto
    · rcases h with rfl | rfl
      · exact .yes
      · exact .no
    · rcases h with rfl | rfl
      · exact .normal
      · exact .error
    · subst h; exact .resume

/-- Blocks reached after an error edge. -/
inductive AfterError (F : Fn) : Nat → Prop
  | edge {b : Nat} {blk : Block} {op : Op} {n e : Nat} : F.blocks[b]? = some blk →
      blk.term = .invoke op n e → AfterError F e
  | go {b : Nat} {blk : Block} {t : Nat} : AfterError F b → F.blocks[b]? = some blk →
      Leads blk.term t → AfterError F t

theorem AfterError.step {F : Fn} {b : Nat} {blk : Block} {t : Nat} (h : AfterError F b)
    (hb : F.blocks[b]? = some blk) (ht : t ∈ blk.term.succs) : AfterError F t :=
  .go h hb (leads_iff.2 ht)

/-- Every terminator leads to a block of the function. -/
def Targets (F : Fn) : Prop := ∀ blk ∈ F.blocks, ∀ t, Leads blk.term t → t < F.blocks.length

theorem Targets.of {F : Fn} (h : Targets F) (blk : Block) (hb : blk ∈ F.blocks) (t : Nat)
    (ht : t ∈ blk.term.succs) : t < F.blocks.length := h blk hb t (leads_iff.2 ht)

theorem mem_errorTargets {F : Fn} {e : Nat} : e ∈ errorTargets F ↔
    ∃ (b : Nat) (blk : Block) (op : Op) (n : Nat), F.blocks[b]? = some blk ∧
      blk.term = .invoke op n e := by
  unfold errorTargets
  rw [List.mem_filterMap]
  constructor
  · rintro ⟨blk, hb, h⟩
    obtain ⟨i, hi⟩ := List.getElem?_of_mem hb
    cases ht : blk.term with
    | invoke op n e' =>
      rw [ht] at h
      simp only [Option.some.injEq] at h
      subst h
      exact ⟨i, blk, op, n, hi, ht⟩
    | _ => rw [ht] at h; exact absurd h (by simp)
  · rintro ⟨b, blk, op, n, hb, ht⟩
    exact ⟨blk, List.mem_of_getElem? hb, by rw [ht]⟩

theorem cleanupLoop_spec {F : Fn} : ∀ (n : Nat) {work seen cl : List Nat},
    cleanupLoop F n work seen = some cl →
    (∀ b ∈ seen, ∀ blk, F.blocks[b]? = some blk → ∀ t ∈ blk.term.succs, t ∈ seen ∨ t ∈ work) →
    (∀ b ∈ seen, AfterError F b) → (∀ b ∈ work, AfterError F b) →
    (∀ b ∈ seen, b ∈ cl) ∧ (∀ b ∈ work, b ∈ cl) ∧ (∀ b ∈ cl, AfterError F b) ∧
      ∀ b ∈ cl, ∀ blk, F.blocks[b]? = some blk → ∀ t ∈ blk.term.succs, t ∈ cl
  | n, [], seen, cl, h, h1, h2, _ => by
    have : seen = cl := by
      cases n <;> simpa [cleanupLoop] using h
    subst this
    refine ⟨fun _ h => h, by simp, h2, fun b hb blk hblk t ht => ?_⟩
    simpa using h1 b hb blk hblk t ht
  | 0, b :: work, seen, cl, h, _, _, _ => by simp [cleanupLoop] at h
  | n + 1, b :: work, seen, cl, h, h1, h2, h3 => by
    rw [cleanupLoop] at h
    split at h
    · rename_i hb
      obtain ⟨a1, a2, a3, a4⟩ := cleanupLoop_spec n h
        (fun c hc blk hblk t ht => by
          rcases h1 c hc blk hblk t ht with h | h
          · exact .inl h
          · rcases List.mem_cons.1 h with rfl | h
            · exact .inl hb
            · exact .inr h)
        h2 (fun c hc => h3 c (List.mem_cons_of_mem _ hc))
      refine ⟨a1, fun c hc => ?_, a3, a4⟩
      rcases List.mem_cons.1 hc with rfl | hc
      · exact a1 _ hb
      · exact a2 c hc
    · rename_i hb
      simp only [Option.bind_eq_some_iff, succsOf, Option.map_eq_some_iff] at h
      obtain ⟨ss, ⟨blk0, hblk0, rfl⟩, h⟩ := h
      have hbA := h3 b List.mem_cons_self
      obtain ⟨a1, a2, a3, a4⟩ := cleanupLoop_spec n h
        (fun c hc blk hblk t ht => by
          rcases List.mem_cons.1 hc with rfl | hc
          · rw [hblk0] at hblk
            cases hblk
            exact .inr (by simp [ht])
          · rcases h1 c hc blk hblk t ht with h | h
            · exact .inl (List.mem_cons_of_mem _ h)
            · rcases List.mem_cons.1 h with rfl | h
              · exact .inl List.mem_cons_self
              · exact .inr (by simp [h]))
        (fun c hc => by
          rcases List.mem_cons.1 hc with rfl | hc
          · exact hbA
          · exact h2 c hc)
        (fun c hc => by
          rcases List.mem_append.1 hc with hc | hc
          · exact .step hbA hblk0 (by simpa using hc)
          · exact h3 c (List.mem_cons_of_mem _ hc))
      refine ⟨fun c hc => a1 c (List.mem_cons_of_mem _ hc), fun c hc => ?_, a3, a4⟩
      rcases List.mem_cons.1 hc with rfl | hc
      · exact a1 _ List.mem_cons_self
      · exact a2 c (by simp [hc])

theorem cleanupBlocks_exact {F : Fn} {cl : List Nat} (h : cleanupBlocks F = some cl) (b : Nat) :
    b ∈ cl ↔ AfterError F b := by
  obtain ⟨-, h2, h3, h4⟩ := cleanupLoop_spec _ h (by simp) (by simp) (fun b hb => by
    rw [List.mem_reverse, mem_errorTargets] at hb
    obtain ⟨c, blk, op, n, hc, ht⟩ := hb
    exact .edge hc ht)
  refine ⟨h3 b, fun hb => ?_⟩
  induction hb with
  | @edge b blk op n e hb ht =>
    exact h2 e (by rw [List.mem_reverse, mem_errorTargets]; exact ⟨b, blk, op, n, hb, ht⟩)
  | @go b blk t _ hb ht ih => exact h4 b ih blk hb t (leads_iff.1 ht)

/-- The number of successors of a block. -/
def weight (F : Fn) (b : Nat) : Nat := (F.blocks[b]?.map fun blk => blk.term.succs.length).getD 0

theorem sum_weight {α : Type} (g : α → Nat) : ∀ (l : List α),
    (l.map g).sum = ∑ i ∈ Finset.range l.length, (l[i]?.map g).getD 0
  | [] => rfl
  | a :: l => by
    rw [List.map_cons, List.sum_cons, List.length_cons, Finset.sum_range_succ', sum_weight g l]
    simp [Nat.add_comm]

/-- The successors still to come. -/
def rest (F : Fn) (seen : List Nat) : Nat :=
  ∑ b ∈ (Finset.range F.blocks.length).filter (· ∉ seen), weight F b

theorem rest_cons {F : Fn} {seen : List Nat} {b : Nat} (hb : b < F.blocks.length)
    (hs : b ∉ seen) : rest F seen = weight F b + rest F (b :: seen) := by
  unfold rest
  have : (Finset.range F.blocks.length).filter (· ∉ seen)
      = insert b ((Finset.range F.blocks.length).filter (· ∉ b :: seen)) := by
    ext c
    simp only [Finset.mem_filter, Finset.mem_range, Finset.mem_insert, List.mem_cons, not_or]
    constructor
    · rintro ⟨h1, h2⟩
      by_cases hc : c = b
      · exact .inl hc
      · exact .inr ⟨h1, hc, h2⟩
    · rintro (rfl | ⟨h1, -, h2⟩)
      · exact ⟨hb, hs⟩
      · exact ⟨h1, h2⟩
  rw [this, Finset.sum_insert (by simp)]

theorem cleanupLoop_total {F : Fn} (hF : Targets F) : ∀ (n : Nat) (work seen : List Nat),
    (∀ b ∈ work, b < F.blocks.length) → work.length + rest F seen ≤ n →
    ∃ cl, cleanupLoop F n work seen = some cl
  | n, [], seen, _, _ => ⟨seen, by cases n <;> rfl⟩
  | 0, b :: work, seen, _, h => by simp at h
  | n + 1, b :: work, seen, hw, h => by
    rw [cleanupLoop]
    have hrest : ∀ c ∈ work, c < F.blocks.length := fun c hc => hw c (List.mem_cons_of_mem _ hc)
    split
    · exact cleanupLoop_total hF n work seen hrest (by simp at h; omega)
    · rename_i hs
      have hb := hw b List.mem_cons_self
      obtain ⟨blk, hblk⟩ : ∃ blk, F.blocks[b]? = some blk := ⟨_, List.getElem?_eq_getElem hb⟩
      simp only [succsOf, hblk, Option.map_some, Option.bind_some]
      apply cleanupLoop_total hF n
      · intro c hc
        rcases List.mem_append.1 hc with hc | hc
        · exact hF.of blk (List.mem_of_getElem? hblk) c (by simpa using hc)
        · exact hrest c hc
      · rw [rest_cons hb hs] at h
        have : weight F b = blk.term.succs.length := by simp [weight, hblk]
        simp only [List.length_cons, List.length_append, List.length_reverse] at h ⊢
        omega

theorem cleanupBlocks_total {F : Fn} (hF : Targets F) : ∃ cl, cleanupBlocks F = some cl := by
  unfold cleanupBlocks
  apply cleanupLoop_total hF
  · intro b hb
    rw [List.mem_reverse, mem_errorTargets] at hb
    obtain ⟨c, blk, op, n, hc, ht⟩ := hb
    exact hF.of blk (List.mem_of_getElem? hc) b (by simp [ht, Term.succs])
  · unfold cleanupFuel rest
    rw [List.length_reverse, sum_weight]
    simp [weight]

/-! ## The blocks of the inlined function -/

theorem Glue.site_lt {F body F' : Fn} {site : Site} {call : Op} {s : Splice}
    (g : Glue F body F' site call s) : site.block < F.blocks.length := by
  have hc := g.call_at
  cases site with
  | op B i => obtain ⟨blk, hb, -⟩ := hc; exact getElem?_lt hb
  | term B => obtain ⟨blk, n, e, hb, -⟩ := hc; exact getElem?_lt hb

theorem Glue.base_le {F body F' : Fn} {site : Site} {call : Op} {s : Splice}
    (g : Glue F body F' site call s) : F.blocks.length ≤ s.base := by
  rw [g.base]; omega

/-- What a block of the inlined function is. -/
theorem Glue.cases_block {F body F' : Fn} {site : Site} {call : Op} {s : Splice}
    (g : Glue F body F' site call s) {b : Nat} {blk' : Block} (h : F'.blocks[b]? = some blk') :
    (b ≠ site.block ∧ b < F.blocks.length ∧ F.blocks[b]? = some blk') ∨
    (b = site.block ∧ ∃ blk, F.blocks[b]? = some blk ∧
      blk' = ⟨blk.ops.take (siteIndex F site) ++ [saveOp F.next], .goto s.base⟩) ∨
    (site.hasError = false ∧ b = F.blocks.length ∧ s.base = b + 1 ∧
      ∃ blk, F.blocks[site.block]? = some blk ∧
      blk' = ⟨blk.ops.drop (siteIndex F site + 1), blk.term⟩) ∨
    (∃ c blk, b = s.base + c ∧ body.blocks[c]? = some blk ∧ copyBlock s blk = some blk') := by
  have hb := getElem?_lt h
  rw [g.length] at hb
  by_cases h1 : b < s.base
  · by_cases h2 : b = site.block
    · refine .inr (.inl ⟨h2, ?_⟩)
      subst h2
      cases site with
      | op B i =>
        obtain ⟨blk, h0, hi, -, -, hF, -⟩ := g.at_op B i rfl
        simp only [Site.block] at h ⊢
        rw [hF] at h
        cases h
        exact ⟨blk, h0, rfl⟩
      | term B =>
        obtain ⟨blk, n, e, h0, -, -, -, hF⟩ := g.at_term B rfl
        simp only [Site.block] at h ⊢
        rw [hF] at h
        cases h
        exact ⟨blk, h0, by simp [siteIndex, h0]⟩
    · by_cases h3 : b < F.blocks.length
      · exact .inl ⟨h2, h3, by rw [← g.other b h2 h3, h]⟩
      · refine .inr (.inr (.inl ?_))
        have hbase := g.base
        cases site with
        | op B i =>
          simp only [Site.hasError, Bool.false_eq_true, if_false] at hbase ⊢
          have hbL : b = F.blocks.length := by omega
          obtain ⟨blk, h0, hi, -, -, -, hF⟩ := g.at_op B i rfl
          rw [hbL, hF] at h
          cases h
          exact ⟨trivial, hbL, by omega, blk, h0, rfl⟩
        | term B =>
          simp only [Site.hasError, if_true] at hbase
          omega
  · refine .inr (.inr (.inr ⟨b - s.base, ?_⟩))
    obtain ⟨blk, hblk⟩ : ∃ blk, body.blocks[b - s.base]? = some blk :=
      ⟨_, List.getElem?_eq_getElem (by omega)⟩
    obtain ⟨blk'', h1', h2'⟩ := g.copied _ _ hblk
    have : s.base + (b - s.base) = b := by omega
    rw [this, h] at h2'
    cases h2'
    exact ⟨blk, this.symm, hblk, h1'⟩

theorem below_mono {N M : Nat} (h : N ≤ M) {o : Operand} (ho : o.below N) : o.below M := by
  cases o with
  | reg r => exact Nat.lt_of_lt_of_le ho h
  | _ => trivial

theorem rename_lt {body : Fn} {base r r' : Nat} (h : rename body base r = some r') :
    r' < base + (results body).length := by
  obtain ⟨h1, h2⟩ := mem_of_rename h
  have := getElem?_lt h2
  omega

theorem copyOperand_below {args : List Operand} {ren : Reg → Option Reg} {M : Nat}
    (hargs : ∀ o ∈ args, o.below M) (hren : ∀ r r', ren r = some r' → r' < M) {o o' : Operand}
    (h : copyOperand args ren o = some o') : o'.below M := by
  cases o with
  | reg r =>
    simp only [copyOperand, Option.map_eq_some_iff] at h
    obtain ⟨r', hr, rfl⟩ := h
    exact hren r r' hr
  | param p =>
    simp only [copyOperand] at h
    exact hargs _ (List.mem_of_getElem? h)
  | fn f => simp only [copyOperand, Option.some.injEq] at h; subst h; trivial
  | const c => simp only [copyOperand, Option.some.injEq] at h; subst h; trivial

theorem mapM_mem {α β : Type} {f : α → Option β} {l : List α} {l' : List β}
    (h : l.mapM f = some l') {b : β} (hb : b ∈ l') : ∃ a ∈ l, f a = some b := by
  obtain ⟨i, hi⟩ := List.getElem?_of_mem hb
  obtain ⟨h1, h2⟩ := mapM_getElem h
  have hlt := getElem?_lt hi
  rw [h1] at hlt
  obtain ⟨b', hb', he⟩ := h2 i _ (List.getElem?_eq_getElem hlt)
  rw [hi] at he
  cases he
  exact ⟨_, List.getElem_mem hlt, hb'⟩

theorem copyOp_below {args : List Operand} {ren : Reg → Option Reg} {M : Nat}
    (hargs : ∀ o ∈ args, o.below M) (hren : ∀ r r', ren r = some r' → r' < M) {op op' : Op}
    (h : copyOp args ren op = some op') :
    (∀ o ∈ op'.operands, o.below M) ∧ ∀ r, op'.result = some r → r < M := by
  obtain ⟨-, -, h1, h2⟩ := copyOp_parts h
  refine ⟨fun o ho => ?_, fun r hr => ?_⟩
  · obtain ⟨a, -, ha⟩ := mapM_mem h1 ho
    exact copyOperand_below hargs hren ha
  · rw [hr] at h2
    cases hres : op.result with
    | none => rw [hres] at h2; simp [copyResult] at h2
    | some q =>
      rw [hres] at h2
      simp only [copyResult, Option.map_eq_some_iff, Option.some.injEq] at h2
      obtain ⟨r', hr', rfl⟩ := h2
      exact hren q r' hr'

theorem copyBlock_mem {s : Splice} {blk blk' : Block} (h : copyBlock s blk = some blk') {o : Op}
    (ho : o ∈ blk'.ops ++ blk'.term.invoked.toList) :
    o = restoreOp s.marker ∨ ∃ op, copyOp s.args s.ren op = some o := by
  unfold copyBlock at h
  simp only [Option.bind_eq_some_iff, Option.map_eq_some_iff] at h
  obtain ⟨ops, hops, t, ht, rfl⟩ := h
  simp only [List.append_assoc, List.mem_append] at ho
  rcases ho with ho | ho
  · obtain ⟨a, -, ha⟩ := mapM_mem hops ho
    exact .inr ⟨a, ha⟩
  · cases hterm : blk.term with
    | goto t' =>
      rw [hterm] at ht; simp only [copyTerm, Option.some.injEq] at ht; subst ht
      simp [Term.invoked] at ho
    | condBr c x y =>
      rw [hterm] at ht
      simp only [copyTerm, Option.map_eq_some_iff] at ht
      obtain ⟨c', -, rfl⟩ := ht
      simp [Term.invoked] at ho
    | invoke op n e =>
      rw [hterm] at ht
      simp only [copyTerm, Option.map_eq_some_iff] at ht
      obtain ⟨op', hop, rfl⟩ := ht
      simp only [Term.invoked, List.not_mem_nil, Option.toList_some, List.mem_singleton,
        false_or] at ho
      subst ho
      exact .inr ⟨op, hop⟩
    | ret =>
      rw [hterm] at ht; simp only [copyTerm, Option.some.injEq] at ht; subst ht
      simp [Term.invoked] at ho
      exact .inl ho
    | propagate =>
      rw [hterm] at ht
      simp only [copyTerm, Option.map_eq_some_iff] at ht
      obtain ⟨e, -, rfl⟩ := ht
      simp [Term.invoked] at ho
      exact .inl ho
    | failure =>
      rw [hterm] at ht; simp only [copyTerm, Option.some.injEq] at ht; subst ht
      simp [Term.invoked] at ho
    | «yield» p t' => rw [hterm] at ht; simp [copyTerm] at ht

theorem copyTerm_condBr {s : Splice} {t : Term} {ops : List Op} {c : Operand} {x y : Nat}
    (h : copyTerm s t = some (ops, .condBr c x y)) : ∃ c0, copyOperand s.args s.ren c0 = some c := by
  cases t with
  | condBr c0 a b =>
    simp only [copyTerm, Option.map_eq_some_iff, Prod.mk.injEq, Term.condBr.injEq] at h
    obtain ⟨c', hc, -, rfl, -⟩ := h
    exact ⟨c0, hc⟩
  | _ => simp [copyTerm] at h

theorem copyTerm_invoke {s : Splice} {t : Term} {ops : List Op} {op : Op} {n e : Nat}
    (h : copyTerm s t = some (ops, .invoke op n e)) :
    ∃ op0 n0 e0, t = .invoke op0 n0 e0 ∧ n = s.base + n0 ∧ e = s.base + e0 := by
  cases t with
  | invoke op0 n0 e0 =>
    simp only [copyTerm, Option.map_eq_some_iff, Prod.mk.injEq, Term.invoke.injEq] at h
    obtain ⟨_, _, _, _, h1, h2⟩ := h
    exact ⟨op0, n0, e0, rfl, h1.symm, h2.symm⟩
  | _ => simp [copyTerm] at h

/-- Where a copied terminator leads. -/
theorem copyTerm_succs {s : Splice} {t : Term} {p : List Op × Term} (h : copyTerm s t = some p)
    {u : Nat} (hu : u ∈ p.2.succs) :
    (∃ v ∈ t.succs, u = s.base + v) ∨ (t = .ret ∧ u = s.normal) ∨
      (t = .propagate ∧ s.error = some u) := by
  cases t with
  | goto a =>
    simp only [copyTerm, Option.some.injEq] at h; subst h
    exact .inl ⟨a, by simp [Term.succs], by simpa [Term.succs] using hu⟩
  | condBr c a b =>
    simp only [copyTerm, Option.map_eq_some_iff] at h
    obtain ⟨c', -, rfl⟩ := h
    simp only [Term.succs, List.mem_cons, List.not_mem_nil, or_false] at hu
    rcases hu with rfl | rfl
    · exact .inl ⟨a, by simp [Term.succs], rfl⟩
    · exact .inl ⟨b, by simp [Term.succs], rfl⟩
  | invoke op n e =>
    simp only [copyTerm, Option.map_eq_some_iff] at h
    obtain ⟨c', -, rfl⟩ := h
    simp only [Term.succs, List.mem_cons, List.not_mem_nil, or_false] at hu
    rcases hu with rfl | rfl
    · exact .inl ⟨n, by simp [Term.succs], rfl⟩
    · exact .inl ⟨e, by simp [Term.succs], rfl⟩
  | ret =>
    simp only [copyTerm, Option.some.injEq] at h; subst h
    exact .inr (.inl ⟨rfl, by simpa [Term.succs] using hu⟩)
  | propagate =>
    simp only [copyTerm, Option.map_eq_some_iff] at h
    obtain ⟨e, he, rfl⟩ := h
    simp only [Term.succs, List.mem_singleton] at hu
    subst hu
    exact .inr (.inr ⟨rfl, he⟩)
  | failure =>
    simp only [copyTerm, Option.some.injEq] at h; subst h
    simp [Term.succs] at hu
  | «yield» p t => simp [copyTerm] at h

theorem copyBlock_parts {s : Splice} {blk blk' : Block} (h : copyBlock s blk = some blk') :
    ∃ p, copyTerm s blk.term = some p ∧ blk'.term = p.2 := by
  obtain ⟨t, ht, hbt, -⟩ := copyBlock_term h
  exact ⟨t, ht, hbt⟩

theorem Glue.names {F body F' : Fn} {site : Site} {call : Op} {s : Splice}
    (g : Glue F body F' site call s) (h : NamesBelow F) : NamesBelow F' := by
  have hle : F.next ≤ F'.next := by rw [g.next]; omega
  have hlt : F.next < F'.next := by rw [g.next]; omega
  have hargs : ∀ o ∈ s.args, o.below F'.next := by
    intro o ho
    rw [g.args] at ho
    have hm := List.mem_of_mem_drop ho
    have hc := g.call_at
    cases site with
    | op b i =>
      obtain ⟨blk, hb, hi⟩ := hc
      exact below_mono hle ((h.op hb hi).1 o hm)
    | term b =>
      obtain ⟨blk, n, e, hb, ht⟩ := hc
      exact below_mono hle ((h.invoked hb ht).1 o hm)
  have hren : ∀ r r', s.ren r = some r' → r' < F'.next := by
    intro r r' hr
    rw [g.ren] at hr
    rw [g.next]
    exact rename_lt hr
  have hold : ∀ blk ∈ F.blocks, ∀ op ∈ blk.ops ++ blk.term.invoked.toList,
      (∀ o ∈ op.operands, o.below F'.next) ∧ ∀ r, op.result = some r → r < F'.next :=
    fun blk hb op ho => ⟨fun o hoo => below_mono hle (((h blk hb).1 op ho).1 o hoo),
      fun r hr => Nat.lt_of_lt_of_le (((h blk hb).1 op ho).2 r hr) hle⟩
  intro blk' hblk'
  obtain ⟨b, hb⟩ := List.getElem?_of_mem hblk'
  rcases g.cases_block hb with ⟨-, -, h0⟩ | ⟨-, blk, h0, rfl⟩ | ⟨-, -, -, blk, h0, rfl⟩ |
    ⟨c, blk, -, h0, hcopy⟩
  · have hm := List.mem_of_getElem? h0
    exact ⟨hold _ hm, fun c x y hc => below_mono hle ((h _ hm).2 c x y hc)⟩
  · have hm := List.mem_of_getElem? h0
    refine ⟨fun op ho => ?_, fun c x y hc => absurd hc (by simp)⟩
    simp only [Term.invoked, Option.toList_none, List.append_nil, List.mem_append,
      List.mem_singleton] at ho
    rcases ho with ho | rfl
    · exact hold _ hm op (List.mem_append_left _ (List.mem_of_mem_take ho))
    · refine ⟨by simp [saveOp], fun r hr => ?_⟩
      simp only [saveOp, Option.some.injEq] at hr
      rw [← hr]
      exact hlt
  · have hm := List.mem_of_getElem? h0
    refine ⟨fun op ho => ?_, fun c x y hc => below_mono hle ((h _ hm).2 c x y hc)⟩
    rcases List.mem_append.1 ho with ho | ho
    · exact hold _ hm op (List.mem_append_left _ (List.mem_of_mem_drop ho))
    · exact hold _ hm op (List.mem_append_right _ ho)
  · refine ⟨fun op ho => ?_, fun c x y hc => ?_⟩
    · rcases copyBlock_mem hcopy ho with rfl | ⟨op0, hop⟩
      · refine ⟨fun o ho' => ?_, fun r hr => by simp [restoreOp] at hr⟩
        simp only [restoreOp, List.mem_singleton] at ho'
        subst ho'
        simp only [Operand.below, g.marker]
        exact hlt
      · exact copyOp_below hargs hren hop
    · obtain ⟨p, hp, hbt⟩ := copyBlock_parts hcopy
      rw [hc] at hbt
      obtain ⟨ops, t⟩ := p
      simp only at hbt
      subst hbt
      obtain ⟨c0, hc0⟩ := copyTerm_condBr hp
      exact copyOperand_below hargs hren hc0

theorem Glue.normal_lt {F body F' : Fn} {site : Site} {call : Op} {s : Splice}
    (g : Glue F body F' site call s) (hF : Targets F) :
    s.normal < F'.blocks.length ∧ ∀ e, s.error = some e → e < F.blocks.length := by
  have hlen := g.length
  have hbase := g.base
  cases site with
  | op B i =>
    obtain ⟨blk, h0, hi, hn, he, -⟩ := g.at_op B i rfl
    simp only [Site.hasError, Bool.false_eq_true, if_false] at hbase
    exact ⟨by omega, fun e h => by rw [he] at h; exact absurd h (by simp)⟩
  | term B =>
    obtain ⟨blk, n, e, h0, ht, hn, he, -⟩ := g.at_term B rfl
    have h1 := hF.of blk (List.mem_of_getElem? h0) n (by simp [ht, Term.succs])
    have h2 := hF.of blk (List.mem_of_getElem? h0) e (by simp [ht, Term.succs])
    have := g.base_le
    exact ⟨by omega, fun e' h => by rw [he] at h; cases h; exact h2⟩

theorem Glue.targets {F body F' : Fn} {site : Site} {call : Op} {s : Splice}
    (g : Glue F body F' site call s) (hF : Targets F) (hbody : Targets body)
    (hne : body.blocks ≠ []) : Targets F' := by
  have hlen := g.length
  have hle := g.base_le
  have hpos : 0 < body.blocks.length := List.length_pos_of_ne_nil hne
  intro blk' hblk' t ht
  rw [leads_iff] at ht
  obtain ⟨b, hb⟩ := List.getElem?_of_mem hblk'
  rcases g.cases_block hb with ⟨-, -, h0⟩ | ⟨-, blk, h0, rfl⟩ | ⟨-, -, -, blk, h0, rfl⟩ |
    ⟨c, blk, -, h0, hcopy⟩
  · have := hF.of _ (List.mem_of_getElem? h0) t ht
    omega
  · simp only [Term.succs, List.mem_singleton] at ht
    omega
  · have := hF.of _ (List.mem_of_getElem? h0) t ht
    omega
  · obtain ⟨p, hp, hbt⟩ := copyBlock_parts hcopy
    rw [hbt] at ht
    rcases copyTerm_succs hp ht with ⟨v, hv, rfl⟩ | ⟨-, rfl⟩ | ⟨-, he⟩
    · have := hbody.of _ (List.mem_of_getElem? h0) v hv
      omega
    · exact (g.normal_lt hF).1
    · have := (g.normal_lt hF).2 t he
      omega

/-! ## Blocks without an error in flight, after a splice -/

/-- A set of blocks never entered with an error in flight: no error edge leads to one, and no
edge from another block does. -/
structure Calm (F : Fn) (calm : Nat → Prop) : Prop where
  error : ∀ (b : Nat) blk op n e, F.blocks[b]? = some blk → blk.term = .invoke op n e → ¬ calm e
  succ : ∀ (b : Nat) blk t, F.blocks[b]? = some blk → t ∈ blk.term.succs → calm t → calm b

/-- No function returns with an error in flight. The verifier asks for it. -/
def NoReturnAfterError (body : Fn) : Prop :=
  ∀ (b : Nat) blk, body.blocks[b]? = some blk → blk.term = .ret → ¬ AfterError body b

/-- The blocks of the inlined function without an error in flight. -/
def calmAfter (F body : Fn) (site : Site) (s : Splice) (calm : Nat → Prop) (b : Nat) : Prop :=
  if b < F.blocks.length then calm b
  else if b < s.base then calm site.block
  else calm site.block ∧ ¬ AfterError body (b - s.base)

theorem Glue.calm {F body F' : Fn} {site : Site} {call : Op} {s : Splice}
    (g : Glue F body F' site call s) (hF : Targets F)
    (hret : NoReturnAfterError body) {calm : Nat → Prop} (h : Calm F calm) :
    Calm F' (calmAfter F body site s calm) := by
  have hle := g.base_le
  have hB := g.site_lt
  have old : ∀ b, b < F.blocks.length → (calmAfter F body site s calm b ↔ calm b) := by
    intro b hb
    simp [calmAfter, hb]
  have cop : ∀ c, calmAfter F body site s calm (s.base + c) ↔
      (calm site.block ∧ ¬ AfterError body c) := by
    intro c
    have h1 : ¬ s.base + c < F.blocks.length := by omega
    have h2 : ¬ s.base + c < s.base := by omega
    simp only [calmAfter, h1, h2, if_false, Nat.add_sub_cancel_left]
  have cont : site.hasError = false → (calmAfter F body site s calm F.blocks.length ↔
      calm site.block) := by
    intro hs
    have hb := g.base
    rw [hs] at hb
    simp only [Bool.false_eq_true, if_false] at hb
    have : F.blocks.length < s.base := by omega
    simp [calmAfter, this]
  constructor
  · intro b blk' op n e hb ht hc
    rcases g.cases_block hb with ⟨-, -, h0⟩ | ⟨-, blk, h0, rfl⟩ | ⟨-, -, -, blk, h0, rfl⟩ |
      ⟨c, blk, -, h0, hcopy⟩
    · have := hF.of _ (List.mem_of_getElem? h0) e (by simp [ht, Term.succs])
      rw [old e this] at hc
      exact h.error b _ op n e h0 ht hc
    · exact absurd ht (by simp)
    · have := hF.of _ (List.mem_of_getElem? h0) e (by simp only at ht; simp [ht, Term.succs])
      rw [old e this] at hc
      exact h.error _ _ op n e h0 ht hc
    · obtain ⟨p, hp, hbt⟩ := copyBlock_parts hcopy
      obtain ⟨ops, t⟩ := p
      simp only at hbt
      rw [ht] at hbt
      subst hbt
      obtain ⟨op0, n0, e0, h1, -, rfl⟩ := copyTerm_invoke hp
      rw [cop] at hc
      exact hc.2 (.edge h0 h1)
  · intro b blk' t hb ht hc
    rcases g.cases_block hb with ⟨-, hlt, h0⟩ | ⟨rfl, blk, h0, rfl⟩ | ⟨hs, rfl, -, blk, h0, rfl⟩ |
      ⟨c, blk, rfl, h0, hcopy⟩
    · have := hF.of _ (List.mem_of_getElem? h0) t ht
      rw [old t this] at hc
      rw [old b hlt]
      exact h.succ b _ t h0 ht hc
    · simp only [Term.succs, List.mem_singleton] at ht
      subst ht
      have := (cop 0).1 (by simpa using hc)
      rw [old _ hB]
      exact this.1
    · have := hF.of _ (List.mem_of_getElem? h0) t ht
      rw [old t this] at hc
      rw [cont hs]
      exact h.succ _ _ t h0 ht hc
    · obtain ⟨p, hp, hbt⟩ := copyBlock_parts hcopy
      rw [hbt] at ht
      rw [cop]
      rcases copyTerm_succs hp ht with ⟨v, hv, rfl⟩ | ⟨hr, rfl⟩ | ⟨-, he⟩
      · rw [cop] at hc
        exact ⟨hc.1, fun hA => hc.2 (.step hA h0 hv)⟩
      · refine ⟨?_, hret c blk h0 hr⟩
        cases site with
        | op B i =>
          obtain ⟨_, _, _, hn, -⟩ := g.at_op B i rfl
          rw [hn, cont rfl] at hc
          exact hc
        | term B =>
          obtain ⟨blk1, n, e, h1, ht1, hn, -⟩ := g.at_term B rfl
          have hnl := hF.of _ (List.mem_of_getElem? h1) n (by simp [ht1, Term.succs])
          rw [hn, old n hnl] at hc
          exact h.succ _ _ n h1 (by simp [ht1, Term.succs]) hc
      · exfalso
        cases site with
        | op B i =>
          obtain ⟨_, _, _, _, he', -⟩ := g.at_op B i rfl
          rw [he'] at he
          exact absurd he (by simp)
        | term B =>
          obtain ⟨blk1, n, e, h1, ht1, -, he', -⟩ := g.at_term B rfl
          rw [he'] at he
          cases he
          have hel := hF.of _ (List.mem_of_getElem? h1) t (by simp [ht1, Term.succs])
          rw [old t hel] at hc
          exact h.error _ _ _ _ t h1 ht1 hc

/-! ## Many sites -/

/-- The order of the plan. -/
def Before : Site → Site → Prop
  | .op b i, .op b' i' => b < b' ∨ (b = b' ∧ i < i')
  | .op b _, .term b' => b ≤ b'
  | .term b, .op b' _ => b < b'
  | .term b, .term b' => b < b'

theorem Glue.callAt {F body F' : Fn} {site : Site} {call : Op} {s : Splice}
    (g : Glue F body F' site call s) {first : Site} (hb : Before first site) {c : Op}
    (h : CallAt F first c) : CallAt F' first c := by
  cases first with
  | op b i =>
    obtain ⟨blk, h0, hi⟩ := h
    by_cases hbs : b = site.block
    · cases site with
      | op B i' =>
        obtain ⟨blk1, h1, -, -, -, hF, -⟩ := g.at_op B i' rfl
        simp only [Site.block] at hbs
        subst hbs
        rw [h0] at h1
        cases h1
        have hlt : i < i' := by
          simp only [Before] at hb
          omega
        refine ⟨_, hF, ?_⟩
        have := getElem?_lt hi
        simp only
        rw [List.getElem?_append_left (by simp; omega), List.getElem?_take_of_lt hlt, hi]
      | term B =>
        obtain ⟨blk1, n, e, h1, -, -, -, hF⟩ := g.at_term B rfl
        simp only [Site.block] at hbs
        subst hbs
        rw [h0] at h1
        cases h1
        refine ⟨_, hF, ?_⟩
        simp only
        rw [List.getElem?_append_left (getElem?_lt hi), hi]
    · exact ⟨blk, by rw [g.other b hbs (getElem?_lt h0), h0], hi⟩
  | term b =>
    obtain ⟨blk, n, e, h0, ht⟩ := h
    have hbs : b ≠ site.block := by
      cases site <;> simp only [Before, Site.block] at hb ⊢ <;> omega
    exact ⟨blk, n, e, by rw [g.other b hbs (getElem?_lt h0), h0], ht⟩

theorem callAt_unique {F : Fn} {site : Site} {c c' : Op} (h : CallAt F site c)
    (h' : CallAt F site c') : c = c' := by
  cases site with
  | op b i =>
    obtain ⟨blk, h0, h1⟩ := h
    obtain ⟨blk', h0', h1'⟩ := h'
    rw [h0] at h0'
    cases h0'
    rw [h1] at h1'
    exact Option.some.inj h1'
  | term b =>
    obtain ⟨blk, n, e, h0, h1⟩ := h
    obtain ⟨blk', n', e', h0', h1'⟩ := h'
    rw [h0] at h0'
    cases h0'
    rw [h1] at h1'
    cases h1'
    rfl

variable {P V C W E : Type}

/-- What a planned site must be for its body to stand for the call. -/
structure Fits (tab : Nat → Option Fn) (g : Nat) (F : Fn) (calm : Nat → Prop) (site : Site)
    (body : Fn) : Prop where
  call : ∃ call callee os, CallAt F site call ∧ call.kind = .call ∧
    call.operands = .fn callee :: os ∧ callee ≠ g ∧ tab callee = some body
  targets : Targets body
  ret : NoReturnAfterError body
  calm : errorFlow body = true → calm site.block

/-- What is kept from one site to the next. -/
structure Stage (sem : Sem P V C W E) (tab : Nat → Option Fn) (g : Nat) (F : Fn)
    (calm : Nat → Prop) (F1 : Fn) : Prop where
  names : NamesBelow F1
  targets : Targets F1
  le : F.blocks.length ≤ F1.blocks.length
  calmed : ∃ calm1, Calm F1 calm1 ∧ ∀ b < F.blocks.length, (calm1 b ↔ calm b)
  runs : ∀ d f args (m : Mem C W) r, Run sem tab (.func d f args m) r → r ≠ .deep → ∀ d' ≤ d,
    Run sem (Function.update tab g (some F1)) (.func d' f args m) r

theorem stage_step {sem : Sem P V C W E} {tab : Nat → Option Fn} {g : Nat} {F F1 F2 body : Fn}
    {calm : Nat → Prop} (st : Stage sem tab g F calm F1) {site : Site}
    (hfit : Fits tab g F calm site body)
    (hcall : ∀ c, CallAt F site c → CallAt F1 site c)
    (h : inlineAt F1 body site = some F2) : Stage sem tab g F calm F2 := by
  obtain ⟨call, s, g', hne⟩ := glue_of_inlineAt h
  obtain ⟨call0, callee, os, hc0, hk, hops, hcg, htab⟩ := hfit.call
  have := callAt_unique g'.call_at (hcall _ hc0)
  subst this
  obtain ⟨calm1, hcalm1, hiff⟩ := st.calmed
  have hB : site.block < F.blocks.length := by
    cases site with
    | op B i => obtain ⟨blk, hb, -⟩ := hc0; exact getElem?_lt hb
    | term B => obtain ⟨blk, n, e, hb, -⟩ := hc0; exact getElem?_lt hb
  refine ⟨g'.names st.names, g'.targets st.targets hfit.targets hne, ?_, ?_, ?_⟩
  · have := g'.length
    have := g'.base_le
    have := st.le
    omega
  · refine ⟨_, g'.calm st.targets hfit.ret hcalm1, fun b hb => ?_⟩
    have : b < F1.blocks.length := by have := st.le; omega
    simp only [calmAfter, this, if_true]
    exact hiff b hb
  · intro d f args m r hrun hr d' hd
    have h1 := st.runs d f args m r hrun hr d' hd
    have S : Setup (Function.update tab g (some F1)) (Function.update tab g (some F2)) g callee
        F1 body F2 site call s calm1 :=
      { glue := g'
        hF := by simp
        hbody := by rw [Function.update_of_ne hcg]; exact htab
        htab := by simp
        kind := hk
        head := ⟨os, hops⟩
        names := st.names
        calm_error := hcalm1.error
        calm_succ := hcalm1.succ
        calm_site := fun hf => (hiff _ hB).2 (hfit.calm hf) }
    exact (kept S h1 hr).1 d' (Nat.le_refl _)

theorem inlineAll_stage {sem : Sem P V C W E} {tab : Nat → Option Fn} {g : Nat} {F : Fn}
    {calm : Nat → Prop} (hF : tab g = some F) (hn : NamesBelow F) (ht : Targets F)
    (hcalm : Calm F calm) (hself : ∀ d f args (m : Mem C W) r, Run sem tab (.func d f args m) r →
      r ≠ .deep → ∀ d' ≤ d, Run sem tab (.func d' f args m) r) :
    ∀ (l : List (Site × Fn)), (∀ p ∈ l, Fits tab g F calm p.1 p.2) →
      l.Pairwise (fun p q => Before p.1 q.1) → ∀ F1, inlineAll F l = some F1 →
      Stage sem tab g F calm F1 ∧
        ∀ site, (∀ p ∈ l, Before site p.1) → ∀ c, CallAt F site c → CallAt F1 site c
  | [], _, _, F1, h => by
    simp only [inlineAll, Option.some.injEq] at h
    subst h
    refine ⟨⟨hn, ht, Nat.le_refl _, ⟨calm, hcalm, fun _ _ => Iff.rfl⟩, ?_⟩, fun _ _ c hc => hc⟩
    rw [Function.update_eq_self_iff.2 hF.symm]
    exact hself
  | (site, body) :: l, hfit, hpw, F2, h => by
    simp only [inlineAll, Option.bind_eq_some_iff] at h
    obtain ⟨F1, h1, h2⟩ := h
    rw [List.pairwise_cons] at hpw
    obtain ⟨hst, hkeep⟩ := inlineAll_stage hF hn ht hcalm hself l
      (fun p hp => hfit p (List.mem_cons_of_mem _ hp)) hpw.2 F1 h1
    refine ⟨stage_step hst (hfit (site, body) List.mem_cons_self) (hkeep site hpw.1) h2, ?_⟩
    intro first hfirst c hc
    obtain ⟨call, s, g', -⟩ := glue_of_inlineAt h2
    exact g'.callAt (hfirst (site, body) List.mem_cons_self)
      (hkeep first (fun p hp => hfirst p (List.mem_cons_of_mem _ hp)) c hc)

/-- A run that does not stop at the limit is also a run from a smaller depth. -/
theorem shallower {sem : Sem P V C W E} {tab : Nat → Option Fn} {job : Job P V C W E}
    {r : Out P V C W E} (h : Run sem tab job r) (hr : r ≠ .deep) :
    match job with
    | .func d f args m => ∀ d' ≤ d, Run sem tab (.func d' f args m) r
    | .prog d p => ∀ d' ≤ d, Run sem tab (.prog d' p) r
    | .exec d k data vs m => ∀ d' ≤ d, Run sem tab (.exec d' k data vs m) r
    | .code d F st b j m => ∀ d' ≤ d, Run sem tab (.code d' F st b j m) r := by
  induction h with
  | func hG hl _ ih =>
    intro d' hd
    exact .func hG hl (ih (fun h => hr (by rw [h]; rfl)) _ (by omega))
  | progOk => exact fun _ _ => .progOk
  | progFail => exact fun _ _ => .progFail
  | progPoison => exact fun _ _ => .progPoison
  | callOk _ _ ih1 ih2 => exact fun d' hd => .callOk (ih1 (by simp) d' hd) (ih2 hr d' hd)
  | callErr _ _ ih1 ih2 => exact fun d' hd => .callErr (ih1 (by simp) d' hd) (ih2 hr d' hd)
  | callPoison _ ih => exact fun d' hd => .callPoison (ih (by simp) d' hd)
  | callDeep => exact absurd rfl hr
  | direct hs hp _ ih =>
    exact fun d' hd => .direct hs hp (ih (fun h => hr (by rw [h]; rfl)) d' hd)
  | plain hk hdir _ ih => exact fun d' hd => .plain hk hdir (ih hr d' hd)
  | save hb ho hk hreg _ ih => exact fun d' hd => .save hb ho hk hreg (ih hr d' hd)
  | restore hb ho hk hops hv _ ih => exact fun d' hd => .restore hb ho hk hops hv (ih hr d' hd)
  | depthOk hb ho hk hl _ ih => exact fun d' hd => .depthOk hb ho hk (by omega) (ih hr d' hd)
  | depthStop => exact absurd rfl hr
  | opOk hb ho hv _ _ ih1 ih2 =>
    exact fun d' hd => .opOk hb ho hv (ih1 (by simp) d' hd) (ih2 hr d' hd)
  | opPoison hb ho hv _ ih => exact fun d' hd => .opPoison hb ho hv (ih (by simp) d' hd)
  | opDeep => exact absurd rfl hr
  | goto hb ht _ ih => exact fun d' hd => .goto hb ht (ih hr d' hd)
  | condBr hb ht hv htest _ ih => exact fun d' hd => .condBr hb ht hv htest (ih hr d' hd)
  | invokeOk hb ht hv _ _ ih1 ih2 =>
    exact fun d' hd => .invokeOk hb ht hv (ih1 (by simp) d' hd) (ih2 hr d' hd)
  | invokeFail hb ht hv _ hf _ ih1 ih2 =>
    exact fun d' hd => .invokeFail hb ht hv (ih1 (by simp) d' hd) hf (ih2 hr d' hd)
  | invokePoison hb ht hv _ ih => exact fun d' hd => .invokePoison hb ht hv (ih (by simp) d' hd)
  | invokeDeep => exact absurd rfl hr
  | ret hb ht hp hs => exact fun _ _ => .ret hb ht hp hs
  | propagate hb ht hp hs => exact fun _ _ => .propagate hb ht hp hs
  | failure hb ht hp hs => exact fun _ _ => .failure hb ht hp hs

end Ferlium.Inline
