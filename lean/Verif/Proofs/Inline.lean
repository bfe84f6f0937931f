import Verif.Model.Inline

/-!
# Lemmas on copied bodies: the shape of the inlined function, and bindings
-/

namespace Ferlium.Inline

variable {P V C W E : Type}

/-! ## Fresh registers -/

theorem mem_of_rename {body : Fn} {base r r' : Nat} (h : rename body base r = some r') :
    base ≤ r' ∧ (results body)[r' - base]? = some r := by
  unfold rename at h
  simp only [Option.map_eq_some_iff] at h
  obtain ⟨⟨a, c⟩, hf, rfl⟩ := h
  have hm := List.mem_of_find?_eq_some hf
  have hp := List.find?_some hf
  simp only [List.mem_reverse] at hm
  have := List.mem_zipIdx_iff_le_and_getElem?_sub.1 hm
  simp only [beq_iff_eq] at hp
  subst hp
  exact this

theorem rename_above {body : Fn} {base r r' : Nat} (h : rename body base r = some r') :
    base ≤ r' := (mem_of_rename h).1

theorem rename_inj {body : Fn} {base r q r' : Nat} (h : rename body base r = some r')
    (h' : rename body base q = some r') : r = q := by
  have a := (mem_of_rename h).2
  have b := (mem_of_rename h').2
  rw [a] at b
  exact Option.some.inj b

/-! ## The shape of the inlined function -/

/-- The number of operations of the call block that come before the call. -/
def siteIndex (F : Fn) : Site → Nat
  | .op _ i => i
  | .term b => (F.blocks[b]?.map (·.ops.length)).getD 0

/-- The call at a site. -/
def CallAt (F : Fn) : Site → Op → Prop
  | .op b i, call => ∃ blk, F.blocks[b]? = some blk ∧ blk.ops[i]? = some call
  | .term b, call => ∃ blk n e, F.blocks[b]? = some blk ∧ blk.term = .invoke call n e

/-- Everything about an inlined function that the proof of simulation needs. -/
structure Glue (F body F' : Fn) (site : Site) (call : Op) (s : Splice) : Prop where
  call_at : CallAt F site call
  args : s.args = call.operands.drop 1
  ren : s.ren = rename body (F.next + 1)
  marker : s.marker = F.next
  len : s.args.length = body.params
  base : s.base = F.blocks.length + (if site.hasError then 0 else 1)
  next : F'.next = F.next + 1 + (results body).length
  params : F'.params = F.params
  length : F'.blocks.length = s.base + body.blocks.length
  other : ∀ b, b ≠ site.block → b < F.blocks.length → F'.blocks[b]? = F.blocks[b]?
  copied : ∀ b blk, body.blocks[b]? = some blk →
    ∃ blk', copyBlock s blk = some blk' ∧ F'.blocks[s.base + b]? = some blk'
  at_op : ∀ B i, site = .op B i → ∃ blk, F.blocks[B]? = some blk ∧ i < blk.ops.length ∧
    s.normal = F.blocks.length ∧ s.error = none ∧
    F'.blocks[B]? = some ⟨blk.ops.take i ++ [saveOp F.next], .goto s.base⟩ ∧
    F'.blocks[F.blocks.length]? = some ⟨blk.ops.drop (i + 1), blk.term⟩
  at_term : ∀ B, site = .term B → ∃ blk n e, F.blocks[B]? = some blk ∧
    blk.term = .invoke call n e ∧ s.normal = n ∧ s.error = some e ∧
    F'.blocks[B]? = some ⟨blk.ops ++ [saveOp F.next], .goto s.base⟩

theorem mapM_getElem {α β : Type} {f : α → Option β} :
    ∀ {l : List α} {l' : List β}, l.mapM f = some l' →
      l'.length = l.length ∧ ∀ (i : Nat) a, l[i]? = some a → ∃ b, f a = some b ∧ l'[i]? = some b
  | [], l', h => by
    simp only [List.mapM_nil, Option.pure_def, Option.some.injEq] at h
    subst h
    simp
  | x :: l, l', h => by
    rw [List.mapM_cons] at h
    simp only [Option.pure_def, Option.bind_eq_bind, Option.bind_eq_some_iff] at h
    obtain ⟨y, hy, ys, hys, he⟩ := h
    simp only [Option.some.injEq] at he
    subst he
    obtain ⟨h1, h2⟩ := mapM_getElem hys
    refine ⟨by simp [h1], fun i a ha => ?_⟩
    cases i with
    | zero =>
      simp only [List.getElem?_cons_zero, Option.some.injEq] at ha
      subst ha
      exact ⟨y, hy, by simp⟩
    | succ i =>
      simp only [List.getElem?_cons_succ] at ha
      obtain ⟨b, hb, hi⟩ := h2 i a ha
      exact ⟨b, hb, by simpa using hi⟩

theorem glue_of_inlineAt {F body F' : Fn} {site : Site} (h : inlineAt F body site = some F') :
    ∃ call s, Glue F body F' site call s ∧ body.blocks ≠ [] := by
  unfold inlineAt at h
  simp only [Option.bind_eq_some_iff] at h
  obtain ⟨⟨call, blocks, normal, error⟩, hta, h⟩ := h
  simp only at h
  split at h
  · exact absurd h (by simp)
  · rename_i hc
    push Not at hc
    simp only [Option.map_eq_some_iff] at h
    obtain ⟨copies, hcopies, rfl⟩ := h
    obtain ⟨hlen, hcop⟩ := mapM_getElem hcopies
    refine ⟨call, spliceAt F body call blocks normal error, ?_, hc.2⟩
    have hcopied : ∀ b blk, body.blocks[b]? = some blk →
        ∃ blk', copyBlock (spliceAt F body call blocks normal error) blk = some blk' ∧
          (blocks.modify site.block
            (fun blk => ⟨blk.ops ++ [saveOp F.next], .goto blocks.length⟩) ++ copies)[
              blocks.length + b]? = some blk' := by
      intro b blk hb
      obtain ⟨blk', h1, h2⟩ := hcop b blk hb
      refine ⟨blk', h1, ?_⟩
      rw [List.getElem?_append_right (by simp)]
      simpa using h2
    cases site with
    | op B i =>
      simp only [takeApart, Option.bind_eq_some_iff, Option.map_eq_some_iff] at hta
      obtain ⟨blk, hblk, call', hcall, heq⟩ := hta
      simp only [Prod.mk.injEq] at heq
      obtain ⟨rfl, rfl, rfl, rfl⟩ := heq
      have hB : B < F.blocks.length := by
        rw [List.getElem?_eq_some_iff] at hblk
        exact hblk.1
      have hi : i < blk.ops.length := by
        rw [List.getElem?_eq_some_iff] at hcall
        exact hcall.1
      refine ⟨⟨blk, hblk, hcall⟩, rfl, rfl, rfl, hc.1, by simp [spliceAt, Site.hasError], rfl, rfl,
        by simp [spliceAt, hlen], ?_, hcopied, ?_, ?_⟩
      · intro b hb hbl
        simp only [Site.block] at hb ⊢
        rw [List.getElem?_append_left (by simp; omega), List.getElem?_modify_ne _ _ (Ne.symm hb),
          List.getElem?_append_left (by simpa using hbl), List.getElem?_set_ne (Ne.symm hb)]
      · intro B' i' he
        simp only [Site.op.injEq] at he
        obtain ⟨rfl, rfl⟩ := he
        refine ⟨blk, hblk, hi, rfl, rfl, ?_, ?_⟩
        · simp only [Site.block]
          rw [List.getElem?_append_left (by simp; omega), List.getElem?_modify_eq,
            List.getElem?_append_left (by simpa using hB), List.getElem?_set_self hB]
          simp [spliceAt]
        · simp only [Site.block]
          rw [List.getElem?_append_left (by simp), List.getElem?_modify_ne _ _ (show B ≠ F.blocks.length by omega),
            List.getElem?_append_right (by simp)]
          simp
      · intro B' he
        exact absurd he (by simp)
    | term B =>
      simp only [takeApart, Option.bind_eq_some_iff] at hta
      obtain ⟨blk, hblk, hta⟩ := hta
      cases ht : blk.term with
      | invoke op n e =>
        rw [ht] at hta
        simp only [Option.some.injEq, Prod.mk.injEq] at hta
        obtain ⟨rfl, rfl, rfl, rfl⟩ := hta
        have hB : B < F.blocks.length := by
          rw [List.getElem?_eq_some_iff] at hblk
          exact hblk.1
        refine ⟨⟨blk, n, e, hblk, ht⟩, rfl, rfl, rfl, hc.1, by simp [spliceAt, Site.hasError], rfl, rfl,
          by simp [spliceAt, hlen], ?_, hcopied, ?_, ?_⟩
        · intro b hb hbl
          simp only [Site.block] at hb ⊢
          rw [List.getElem?_append_left (by simpa using hbl),
            List.getElem?_modify_ne _ _ (Ne.symm hb)]
        · intro B' i' he
          exact absurd he (by simp)
        · intro B' he
          simp only [Site.term.injEq] at he
          subst he
          refine ⟨blk, n, e, hblk, ht, rfl, rfl, ?_⟩
          simp only [Site.block]
          rw [List.getElem?_append_left (by simpa using hB), List.getElem?_modify_eq, hblk]
          simp [spliceAt]
      | _ => rw [ht] at hta; exact absurd hta (by simp)

/-! ## Positions -/

/-- Where a position of the caller is found in the inlined function. -/
inductive Pos (F : Fn) (site : Site) : Nat → Nat → Nat → Nat → Prop
  | same {b j} : b ≠ site.block → Pos F site b j b j
  | before {j} : j ≤ siteIndex F site → Pos F site site.block j site.block j
  | after {B i j} : site = .op B i → i < j → Pos F site B j F.blocks.length (j - i - 1)

theorem Pos.start (F : Fn) (site : Site) (t : Nat) : Pos F site t 0 t 0 := by
  by_cases h : t = site.block
  · subst h; exact .before (Nat.zero_le _)
  · exact .same h

/-- Whether a position is the call itself. -/
def AtSite (F : Fn) (site : Site) (b j : Nat) : Prop := b = site.block ∧ j = siteIndex F site

theorem Glue.op_step {F body F' : Fn} {site : Site} {call : Op} {s : Splice}
    (g : Glue F body F' site call s) {b j b' j' : Nat} (hp : Pos F site b j b' j')
    (hs : ¬ AtSite F site b j) {blk : Block} (hb : F.blocks[b]? = some blk) {op : Op}
    (ho : blk.ops[j]? = some op) :
    ∃ blk', F'.blocks[b']? = some blk' ∧ blk'.ops[j']? = some op ∧
      Pos F site b (j + 1) b' (j' + 1) := by
  have hbl : b < F.blocks.length := by
    rw [List.getElem?_eq_some_iff] at hb
    exact hb.1
  have hjl : j < blk.ops.length := by
    rw [List.getElem?_eq_some_iff] at ho
    exact ho.1
  cases hp with
  | same h => exact ⟨blk, by rw [g.other _ h hbl, hb], ho, .same h⟩
  | before h =>
    have hlt : j < siteIndex F site := by
      rcases Nat.lt_or_ge j (siteIndex F site) with h1 | h1
      · exact h1
      · exact absurd ⟨rfl, by omega⟩ hs
    cases site with
    | op B i =>
      obtain ⟨blk0, h0, hi, -, -, hF, -⟩ := g.at_op B i rfl
      simp only [Site.block] at hb ⊢
      rw [h0] at hb
      cases hb
      refine ⟨_, hF, ?_, ?_⟩
      · simp only [siteIndex] at hlt
        rw [List.getElem?_append_left (by simp; omega), List.getElem?_take_of_lt hlt, ho]
      · exact .before (by simpa using hlt)
    | term B =>
      obtain ⟨blk0, n, e, h0, -, -, -, hF⟩ := g.at_term B rfl
      simp only [Site.block] at hb ⊢
      rw [h0] at hb
      cases hb
      refine ⟨_, hF, ?_, ?_⟩
      · rw [List.getElem?_append_left hjl, ho]
      · exact .before (by simpa using hlt)
  | @after _ i _ he h =>
    obtain ⟨blk0, h0, hi, -, -, -, hF⟩ := g.at_op b i he
    rw [h0] at hb
    cases hb
    refine ⟨_, hF, ?_, ?_⟩
    · rw [List.getElem?_drop, ← ho]
      congr 1
      omega
    · have : j - i - 1 + 1 = j + 1 - i - 1 := by omega
      rw [this]
      exact .after he (by omega)

theorem Glue.term_step {F body F' : Fn} {site : Site} {call : Op} {s : Splice}
    (g : Glue F body F' site call s) {b b' j' : Nat} {blk : Block}
    (hp : Pos F site b blk.ops.length b' j')
    (hs : ¬ AtSite F site b blk.ops.length) (hb : F.blocks[b]? = some blk) :
    ∃ blk', F'.blocks[b']? = some blk' ∧ j' = blk'.ops.length ∧ blk'.term = blk.term := by
  have hbl : b < F.blocks.length := by
    rw [List.getElem?_eq_some_iff] at hb
    exact hb.1
  generalize hj : blk.ops.length = j at hp hs
  cases hp with
  | same h => exact ⟨blk, by rw [g.other _ h hbl, hb], hj.symm, rfl⟩
  | before h =>
    exfalso
    apply hs
    refine ⟨rfl, ?_⟩
    cases site with
    | op B i =>
      obtain ⟨blk0, h0, hi, -⟩ := g.at_op B i rfl
      simp only [Site.block] at hb
      rw [h0] at hb
      cases hb
      simp only [siteIndex] at h ⊢
      omega
    | term B =>
      simp only [Site.block] at hb
      simp only [siteIndex, hb] at h ⊢
      simp [hj]
  | @after _ i _ he h =>
    obtain ⟨blk0, h0, hi, -, -, -, hF⟩ := g.at_op b i he
    rw [h0] at hb
    cases hb
    refine ⟨_, hF, ?_, rfl⟩
    simp only [List.length_drop]
    omega

/-- At the call, the inlined function holds the marker and goes on with the copy. -/
theorem Glue.at_site {F body F' : Fn} {site : Site} {call : Op} {s : Splice}
    (g : Glue F body F' site call s) {b j b' j' : Nat} (hp : Pos F site b j b' j')
    (hs : AtSite F site b j) :
    b' = b ∧ j' = j ∧ ∃ blk', F'.blocks[b]? = some blk' ∧ blk'.ops[j]? = some (saveOp F.next) ∧
      blk'.ops.length = j + 1 ∧ blk'.term = .goto s.base := by
  obtain ⟨rfl, rfl⟩ := hs
  have hsame : b' = site.block ∧ j' = siteIndex F site := by
    generalize hB : site.block = B at hp
    generalize hJ : siteIndex F site = J at hp
    cases hp with
    | same h => exact absurd hB.symm h
    | before h => exact ⟨rfl, rfl⟩
    | after he h =>
      subst he
      simp only [siteIndex] at hJ
      omega
  refine ⟨hsame.1, hsame.2, ?_⟩
  cases site with
  | op B i =>
    obtain ⟨blk0, h0, hi, -, -, hF, -⟩ := g.at_op B i rfl
    refine ⟨_, hF, ?_, ?_, rfl⟩
    · simp only [siteIndex]
      rw [List.getElem?_append_right (by simp)]
      simp [Nat.min_eq_left (le_of_lt hi)]
    · simp [siteIndex, Nat.min_eq_left (le_of_lt hi)]
  | term B =>
    obtain ⟨blk0, n, e, h0, -, -, -, hF⟩ := g.at_term B rfl
    refine ⟨_, hF, ?_, ?_, rfl⟩
    · simp [siteIndex, h0]
    · simp [siteIndex, h0]

/-! ## Copied blocks -/

theorem copyBlock_op {s : Splice} {blk blk' : Block} (h : copyBlock s blk = some blk') {j : Nat}
    {op : Op} (ho : blk.ops[j]? = some op) :
    ∃ op', copyOp s.args s.ren op = some op' ∧ blk'.ops[j]? = some op' := by
  unfold copyBlock at h
  simp only [Option.bind_eq_some_iff, Option.map_eq_some_iff] at h
  obtain ⟨ops, hops, t, ht, rfl⟩ := h
  obtain ⟨hl, hg⟩ := mapM_getElem hops
  obtain ⟨op', h1, h2⟩ := hg j op ho
  refine ⟨op', h1, ?_⟩
  have : j < ops.length := by
    rw [List.getElem?_eq_some_iff] at h2
    exact h2.1
  rw [List.getElem?_append_left this, h2]

theorem copyBlock_term {s : Splice} {blk blk' : Block} (h : copyBlock s blk = some blk') :
    ∃ t, copyTerm s blk.term = some t ∧ blk'.term = t.2 ∧
      blk'.ops.length = blk.ops.length + t.1.length ∧
      ∀ (i : Nat), blk'.ops[blk.ops.length + i]? = t.1[i]? := by
  unfold copyBlock at h
  simp only [Option.bind_eq_some_iff, Option.map_eq_some_iff] at h
  obtain ⟨ops, hops, t, ht, rfl⟩ := h
  obtain ⟨hl, -⟩ := mapM_getElem hops
  refine ⟨t, ht, rfl, by simp [hl], fun i => ?_⟩
  rw [List.getElem?_append_right (by omega)]
  congr 1
  omega

theorem copyOp_parts {args : List Operand} {ren : Reg → Option Reg} {op op' : Op}
    (h : copyOp args ren op = some op') :
    op'.kind = op.kind ∧ op'.data = op.data ∧
      op.operands.mapM (copyOperand args ren) = some op'.operands ∧
      copyResult ren op.result = some op'.result := by
  unfold copyOp at h
  simp only [Option.bind_eq_some_iff, Option.map_eq_some_iff] at h
  obtain ⟨os, hos, r, hr, rfl⟩ := h
  exact ⟨rfl, rfl, hos, hr⟩

/-! ## Bindings -/

/-- The bindings of the inlined function agree with those of the caller on the caller's own
registers. -/
def Agree (N : Nat) (a b : Reg → Option (View P V)) : Prop := ∀ r < N, b r = a r

/-- Operands that name registers below a bound. -/
def Operand.below (N : Nat) : Operand → Prop
  | .reg r => r < N
  | _ => True

theorem writeBack_agree {N : Nat} : ∀ (os : List Operand) (vs : List V)
    {a b : Reg → Option (View P V)}, Agree N a b → (∀ o ∈ os, o.below N) →
      Agree N (writeBack a os vs) (writeBack b os vs)
  | [], vs, a, b, h, _ => by cases vs <;> simpa [writeBack] using h
  | o :: os, [], a, b, h, _ => by cases o <;> simpa [writeBack] using h
  | o :: os, v :: vs, a, b, h, hb => by
    have hrest : ∀ o ∈ os, o.below N := fun o ho => hb o (by simp [ho])
    cases o with
    | reg r =>
      have hr : r < N := hb _ List.mem_cons_self
      simp only [writeBack]
      apply writeBack_agree os vs _ hrest
      rw [h r hr]
      cases a r with
      | none => exact h
      | some w =>
        cases w with
        | value x =>
          intro q hq
          by_cases hqr : q = r
          · subst hqr; simp
          · simp [Function.update_of_ne hqr, h q hq]
        | _ => exact h
    | _ =>
      simp only [writeBack]
      exact writeBack_agree os vs h hrest

/-- The bindings inside a copied body: the caller's registers hold what they held at the call, and
the renamed registers hold what the callee's hold. -/
structure Copied (N : Nat) (ren : Reg → Option Reg) (mark : View P V)
    (caller callee now : Reg → Option (View P V)) : Prop where
  agree : Agree N caller now
  marker : now N = some mark
  renamed : ∀ r r', ren r = some r' → ∀ v, callee r = some v → now r' = some v

theorem Copied.update {N : Nat} {ren : Reg → Option Reg} {mark : View P V}
    {caller callee now : Reg → Option (View P V)} (h : Copied N ren mark caller callee now)
    (habove : ∀ r r', ren r = some r' → N < r')
    (hinj : ∀ r q r', ren r = some r' → ren q = some r' → r = q)
    {r r' : Nat} (hr : ren r = some r') (v : View P V) :
    Copied N ren mark caller (Function.update callee r (some v))
      (Function.update now r' (some v)) := by
  have hN := habove r r' hr
  refine ⟨fun q hq => ?_, ?_, ?_⟩
  · rw [Function.update_of_ne (show q ≠ r' from by omega)]
    exact h.agree q hq
  · rw [Function.update_of_ne (show N ≠ r' from by omega)]
    exact h.marker
  · intro q q' hq w hw
    by_cases hqr : q = r
    · subst hqr
      rw [hr] at hq
      cases hq
      simpa using hw
    · rw [Function.update_of_ne hqr] at hw
      have : q' ≠ r' := by
        rintro rfl
        exact hqr (hinj _ _ _ hq hr)
      rw [Function.update_of_ne this]
      exact h.renamed q q' hq w hw

theorem Copied.update_now {N : Nat} {ren : Reg → Option Reg} {mark : View P V}
    {caller callee now : Reg → Option (View P V)} (h : Copied N ren mark caller callee now)
    (habove : ∀ r r', ren r = some r' → N < r')
    (hinj : ∀ r q r', ren r = some r' → ren q = some r' → r = q)
    {r r' : Nat} (hr : ren r = some r') (hn : callee r = none) (v : View P V) :
    Copied N ren mark caller callee (Function.update now r' (some v)) := by
  have hN := habove r r' hr
  refine ⟨fun q hq => ?_, ?_, ?_⟩
  · rw [Function.update_of_ne (show q ≠ r' from by omega)]
    exact h.agree q hq
  · rw [Function.update_of_ne (show N ≠ r' from by omega)]
    exact h.marker
  · intro q q' hq w hw
    have : q' ≠ r' := by
      rintro rfl
      have := hinj _ _ _ hq hr
      subst this
      rw [hn] at hw
      exact absurd hw (by simp)
    rw [Function.update_of_ne this]
    exact h.renamed q q' hq w hw

/-- The arguments of the call, as operands: what they name is passed as it is. -/
def Passed (N : Nat) (caller : Reg → Option (View P V)) (args : List Operand) : Prop :=
  ∀ r, Operand.reg r ∈ args → r < N ∧ ∀ v, caller r ≠ some (.value v)

theorem writeBack_copied {N : Nat} {ren : Reg → Option Reg} {mark : View P V}
    {caller : Reg → Option (View P V)} {args : List Operand}
    (habove : ∀ r r', ren r = some r' → N < r')
    (hinj : ∀ r q r', ren r = some r' → ren q = some r' → r = q)
    (hargs : Passed N caller args) : ∀ (os os' : List Operand) (vs : List V)
    {callee now : Reg → Option (View P V)}, Copied N ren mark caller callee now →
      os.mapM (copyOperand args ren) = some os' →
      Copied N ren mark caller (writeBack callee os vs) (writeBack now os' vs)
  | [], os', vs, callee, now, h, hm => by
    simp only [List.mapM_nil, Option.pure_def, Option.some.injEq] at hm
    subst hm
    cases vs <;> simpa [writeBack] using h
  | o :: os, os', vs, callee, now, h, hm => by
    rw [List.mapM_cons] at hm
    simp only [Option.pure_def, Option.bind_eq_bind, Option.bind_eq_some_iff] at hm
    obtain ⟨o', ho, ys, hys, he⟩ := hm
    simp only [Option.some.injEq] at he
    subst he
    cases vs with
    | nil => cases o <;> cases o' <;> simpa [writeBack] using h
    | cons v vs =>
      cases o with
      | reg r =>
        simp only [copyOperand, Option.map_eq_some_iff] at ho
        obtain ⟨r', hr, rfl⟩ := ho
        simp only [writeBack]
        apply writeBack_copied habove hinj hargs os ys vs _ hys
        cases hc : callee r with
        | none =>
          simp only
          split
          · exact h.update_now habove hinj hr hc _
          · exact h
        | some w =>
          rw [h.renamed r r' hr w hc]
          cases w with
          | value x => exact h.update habove hinj hr _
          | _ => exact h
      | param p =>
        simp only [copyOperand] at ho
        have hmem : o' ∈ args := by
          rw [List.getElem?_eq_some_iff] at ho
          obtain ⟨hlt, rfl⟩ := ho
          exact List.getElem_mem hlt
        cases o' with
        | reg q =>
          obtain ⟨hq, hv⟩ := hargs q hmem
          simp only [writeBack]
          have : now q = caller q := h.agree q hq
          rw [this]
          split
          · rename_i x hx
            exact absurd hx (hv x)
          · exact writeBack_copied habove hinj hargs os ys vs h hys
        | _ =>
          simp only [writeBack]
          exact writeBack_copied habove hinj hargs os ys vs h hys
      | fn f =>
        simp only [copyOperand, Option.some.injEq] at ho
        subst ho
        simp only [writeBack]
        exact writeBack_copied habove hinj hargs os ys vs h hys
      | const c =>
        simp only [copyOperand, Option.some.injEq] at ho
        subst ho
        simp only [writeBack]
        exact writeBack_copied habove hinj hargs os ys vs h hys

theorem view_mapM_agree {N : Nat} {st st' : Frame P V E} (h : Agree N st.slots st'.slots)
    (hp : st'.params = st.params) : ∀ (os : List Operand), (∀ o ∈ os, o.below N) →
      os.mapM st'.view = os.mapM st.view
  | [], _ => rfl
  | o :: os, hb => by
    have : st'.view o = st.view o := by
      cases o with
      | reg r => exact h r (hb _ List.mem_cons_self)
      | param p => simp [Frame.view, hp]
      | _ => rfl
    rw [List.mapM_cons, List.mapM_cons, this, view_mapM_agree h hp os fun o ho => hb o (by simp [ho])]

theorem view_copy {N : Nat} {ren : Reg → Option Reg} {mark : View P V}
    {st stc st' : Frame P V E} {args : List Operand}
    (hc : Copied N ren mark st.slots stc.slots st'.slots) (hp : st'.params = st.params)
    (hbelow : ∀ o ∈ args, o.below N) (hviews : args.mapM st.view = some stc.params)
    {o o' : Operand} (ho : copyOperand args ren o = some o') {v : View P V}
    (hv : stc.view o = some v) : st'.view o' = some v := by
  cases o with
  | reg r =>
    simp only [copyOperand, Option.map_eq_some_iff] at ho
    obtain ⟨r', hr, rfl⟩ := ho
    exact hc.renamed r r' hr v hv
  | param p =>
    simp only [copyOperand] at ho
    obtain ⟨w, hw, hw'⟩ := (mapM_getElem hviews).2 p o' ho
    simp only [Frame.view] at hv
    rw [hv] at hw'
    cases hw'
    rw [← hw]
    have hmem : o' ∈ args := by
      rw [List.getElem?_eq_some_iff] at ho
      obtain ⟨hlt, rfl⟩ := ho
      exact List.getElem_mem hlt
    cases o' with
    | reg q => exact hc.agree q (hbelow _ hmem)
    | param q => simp [Frame.view, hp]
    | _ => rfl
  | fn f =>
    simp only [copyOperand, Option.some.injEq] at ho
    subst ho
    exact hv
  | const c =>
    simp only [copyOperand, Option.some.injEq] at ho
    subst ho
    exact hv

theorem view_mapM_copy {N : Nat} {ren : Reg → Option Reg} {mark : View P V}
    {st stc st' : Frame P V E} {args : List Operand}
    (hc : Copied N ren mark st.slots stc.slots st'.slots) (hp : st'.params = st.params)
    (hbelow : ∀ o ∈ args, o.below N) (hviews : args.mapM st.view = some stc.params) :
    ∀ (os os' : List Operand) (vs : List (View P V)),
      os.mapM (copyOperand args ren) = some os' → os.mapM stc.view = some vs →
      os'.mapM st'.view = some vs
  | [], os', vs, h, hv => by
    simp only [List.mapM_nil, Option.pure_def, Option.some.injEq] at h hv
    subst h hv
    rfl
  | o :: os, os', vs, h, hv => by
    rw [List.mapM_cons] at h hv
    simp only [Option.pure_def, Option.bind_eq_bind, Option.bind_eq_some_iff] at h hv
    obtain ⟨o', ho, ys, hys, he⟩ := h
    obtain ⟨w, hw, ws, hws, he'⟩ := hv
    simp only [Option.some.injEq] at he he'
    subst he he'
    rw [List.mapM_cons, view_copy hc hp hbelow hviews ho hw,
      view_mapM_copy hc hp hbelow hviews os ys ws hys hws]
    rfl

end Ferlium.Inline
