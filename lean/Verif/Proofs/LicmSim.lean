import Verif.Proofs.Licm

/-!
# Moving calls out of loops: runs
-/

namespace Ferlium.Licm

variable {V W : Type}

theorem At.ofOps {F : Fn} {b i : Nat} {blk : Block} {op : Op} (hb : F[b]? = some blk) (hi : blk.ops[i]? = some op) :
    At F b i op := by
  refine ⟨blk, hb, ?_⟩
  have : i < blk.ops.length := by
    by_contra hn
    rw [List.getElem?_eq_none (by omega)] at hi; simp at hi
  unfold Block.all
  rw [List.getElem?_append_left this]; exact hi

theorem At.ofTerm {F : Fn} {b : Nat} {blk : Block} {op : Op} (hb : F[b]? = some blk) (hi : blk.term.op = some op) :
    At F b blk.ops.length op := by
  refine ⟨blk, hb, ?_⟩
  unfold Block.all
  rw [List.getElem?_append_right (Nat.le_refl _), hi]; simp

theorem lt_of_getElem? {α : Type} {l : List α} {i : Nat} {a : α} (h : l[i]? = some a) : i < l.length := by
  by_contra hn
  rw [List.getElem?_eq_none (by omega)] at h; simp at h

section

variable {F : Fn} {ρ : Reg → Option Root} (p : Plan F ρ)

/-- The part of the text between the place of insertion and the end of the loop. -/
def Plan.Region (b i : Nat) : Prop := p.L b ∨ (b = p.P ∧ p.k ≤ i)

/-! ## Facts -/

theorem facts_down {tracked : Root → Prop} {facts : Nat → Nat → Fact → Prop} (must : Must F ρ tracked facts) {b : Nat}
    {blk : Block} (hb : F[b]? = some blk) {φ : Fact} {j : Nat} :
    ∀ i, j ≤ i → i ≤ blk.ops.length → (∀ l op, j ≤ l → l < i → blk.ops[l]? = some op → ¬ Gives ρ op φ) →
      facts b i φ → facts b j φ
  | 0, hj, _, _, h => by obtain rfl : j = 0 := by omega
                         exact h
  | i + 1, hj, hi, hg, h => by
    by_cases e : j = i + 1
    · subst e; exact h
    · have hl : i < blk.ops.length := by omega
      have hop : blk.ops[i]? = some blk.ops[i] := List.getElem?_eq_getElem hl
      rcases must.back hb hop h with h' | ⟨_, h'⟩
      · exact absurd h' (hg i _ (by omega) (by omega) hop)
      · exact facts_down must hb i (by omega) (by omega) (fun l op h1 h2 => hg l op h1 (by omega)) h'

/-- Facts that nothing establishes in the region hold at the place of insertion. -/
theorem Plan.facts_insertion {tracked : Root → Prop} {facts : Nat → Nat → Fact → Prop} (must : Must F ρ tracked facts)
    {φ : Fact} (hg : ∀ b i op, p.Region b i → At F b i op → ¬ Gives ρ op φ) {b : Nat}
    (hr : Avoids F (fun _ => False) b) : p.L b → ∀ i blk, F[b]? = some blk → i ≤ blk.ops.length → facts b i φ →
      facts p.P p.k φ := by
  induction hr with
  | entry => intro h; exact absurd h p.Lentry
  | @step b c hb hc hn ih =>
    intro hL i blk hblk hi hf
    have h0 : facts c 0 φ := facts_down must hblk i (Nat.zero_le _) hi
      (fun l op _ _ ho => hg c l op (.inl hL) (.ofOps hblk ho)) hf
    obtain ⟨bb, hbb⟩ : ∃ bb, F[b]? = some bb := by
      unfold Fn.successors at hc
      cases h : F[b]? with
      | none => simp [h] at hc
      | some bb => exact ⟨bb, rfl⟩
    rcases p.enter b c hc hL with h | ⟨rfl, rfl⟩
    · rcases must.edge hbb hc h0 with ⟨op, ho, hgo⟩ | h1
      · exact absurd hgo (hg b _ op (.inl h) (.ofTerm hbb ho))
      · exact ih h _ bb hbb (Nat.le_refl _) h1
    · obtain rfl : bb = p.pre := by rw [p.hpre] at hbb; exact (Option.some.inj hbb).symm
      rcases must.edge hbb hc h0 with ⟨op, ho, hgo⟩ | h1
      · rw [p.hgoto] at ho; simp [Term.op] at ho
      · exact facts_down must hbb _ p.hk (Nat.le_refl _)
          (fun l op hl _ ho => hg _ l op (.inr ⟨rfl, hl⟩) (.ofOps hbb ho)) h1

/-- The block before the loop can be reached without it. -/
theorem Plan.avoids (wf : Wf F) : Avoids F p.L p.P := by
  have key : ∀ b, Avoids F (fun _ => False) b → Avoids F p.L b ∨ Avoids F p.L p.P := by
    intro b h
    induction h with
    | entry => exact .inl (.entry p.Lentry)
    | @step b c hb hc _ ih =>
      rcases ih with h | h
      · by_cases hL : p.L c
        · rcases p.enter b c hc hL with h' | ⟨rfl, _⟩
          · exact absurd h' h.good
          · exact .inr h
        · exact .inl (.step h hc hL)
      · exact .inr h
  exact (key _ (wf.reachable _ (lt_of_getElem? p.hpre))).elim id id

variable {sem : Sem V W} {facts : Nat → Nat → Fact → Prop} {tracked : Root → Prop} {s₀ : State V W}

theorem Plan.not_gives_outside {b i : Nat} {op : Op} (hb : ¬ p.L b) (ha : At F b i op) :
    ¬ Gives ρ op (.init (.alloca p.r)) := by
  rintro (⟨j, o, ho, _, hp⟩ | ⟨ho, hk⟩)
  · exact p.outside b i op o hb ha (List.mem_of_getElem? ho) hp
  · obtain ⟨ty, hty⟩ := p.alloca b i op ha ho
    exact hk ty hty

/-- Before the loop, the storage of the result is not initialised. -/
theorem Plan.no_init (must : Must F ρ tracked facts) (holds : Holds sem ρ F tracked facts s₀) (fresh : Fresh s₀)
    (htr : tracked (.alloca p.r)) {b : Nat} (h : Avoids F p.L b) : ∀ i blk, F[b]? = some blk → i ≤ blk.ops.length →
      ¬ facts b i (.init (.alloca p.r)) := by
  induction h with
  | entry h0 =>
    intro i blk hblk hi hf
    have := facts_down must hblk i (Nat.zero_le _) hi
      (fun l op _ _ ho => p.not_gives_outside h0 (.ofOps hblk ho)) hf
    exact (holds 0 0 s₀ .start).1 _ htr this (fresh.2.2.1 _)
  | @step b c hb hc hn ih =>
    intro i blk hblk hi hf
    have h0 := facts_down must hblk i (Nat.zero_le _) hi
      (fun l op _ _ ho => p.not_gives_outside hn (.ofOps hblk ho)) hf
    obtain ⟨bb, hbb⟩ : ∃ bb, F[b]? = some bb := by
      unfold Fn.successors at hc
      cases h : F[b]? with
      | none => simp [h] at hc
      | some bb => exact ⟨bb, rfl⟩
    rcases must.edge hbb hc h0 with ⟨op, ho, hgo⟩ | h1
    · exact p.not_gives_outside hb.good (.ofTerm hbb ho) hgo
    · exact ih _ bb hbb (Nat.le_refl _) h1

/-! ## Relations at points of the text -/

/-- Points saved in the region keep the storage of the result. -/
def Plan.Mk (s' : State V W) : Prop :=
  ∀ m l, s'.marks m = some l → (∃ d i o, At F d i o ∧ o.result = some m ∧ p.Region d i) → l p.r = true

structure Plan.Outer (sem : Sem V W) (s₀ : State V W) (b i : Nat) (s s' : State V W) : Prop where
  reach : Reach sem ρ F s₀ b i s
  rel : Rel p.moved p.r s s'
  marked : p.Mk s'

structure Plan.Inner (sem : Sem V W) (s₀ : State V W) (facts : Nat → Nat → Fact → Prop) (sk : State V W) (v : V)
    (b i : Nat) (s s' : State V W) : Prop extends p.Outer sem s₀ b i s s' where
  live : s'.live p.r = true
  cell : s'.cells (.alloca p.r) = some v
  fact : facts b i (.init (.alloca p.r)) → s.cells (.alloca p.r) = some v
  frozen : ∀ j o, p.op.operands[j]? = some o → s.val o = sk.val o ∧ (j + 1 < p.op.operands.length →
    ∀ q, place ρ o = some q → s.cells q = sk.cells q ∨ s.cells q = none)

/-- What the call gives in the state `sk`. -/
structure Plan.Known (sem : Sem V W) (sk : State V W) (v : V) : Prop where
  call : ∀ w, ∃ res l, sem.op p.op (sk.args ρ p.op) w = .ok res l w ∧ (l[p.op.operands.length - 1]?).getD none = some v

/-- A saved point that is restored in the region keeps the storage. -/
theorem Plan.kept (wf : Wf F) {b i : Nat} {o : Op} (hr : p.Region b i) (ha : At F b i o) (hk : o.kind = .stackRestore)
    {m : Reg} (hm : o.operands.head? = some (.reg m)) {s' : State V W} (mk : p.Mk s') {l : Reg → Bool}
    (hl : s'.marks m = some l) : l p.r = true := by
  have hmem : Operand.reg m ∈ o.operands := by
    cases ho : o.operands with
    | nil => simp [ho] at hm
    | cons a rest => simp only [ho, List.head?_cons, Option.some.injEq] at hm; simp [hm]
  obtain ⟨d, j, o', hd, hres, _⟩ := wf.defined ha hmem
  exact mk m l hl ⟨d, j, o', hd, hres, p.restores b i o m hr ha hk hm d j o' hd hres⟩

/-- An operation of the region, other than those that move. -/
theorem Plan.inner_exec (wf : Wf F) (must : Must F ρ tracked facts) (holds : Holds sem ρ F tracked facts s₀)
    (htr : tracked (.alloca p.r)) {sk : State V W} {v : V} {b i b₂ i₂ : Nat} {s s' : State V W} {o : Op}
    (hin : p.Inner sem s₀ facts sk v b i s s') (hr : p.Region b i) (ha : At F b i o)
    (hcall : ¬ (b = p.cb ∧ i = p.ci)) (hall : ¬ (p.moved ∧ b = p.ab ∧ i = p.ai)) {t : Step V W}
    (ht : Exec sem ρ o s t) (hnext : ∀ t₁, t = .next t₁ → Reach sem ρ F s₀ b₂ i₂ t₁)
    (hfact : facts b₂ i₂ (.init (.alloca p.r)) → Gives ρ o (.init (.alloca p.r)) ∨ facts b i (.init (.alloca p.r))) :
    ∃ t', Exec sem ρ o s' t' ∧ Sim (p.Inner sem s₀ facts sk v b₂ i₂) t t' := by
  have hc : ∀ j q, o.operands[j]? = some q → changes o j = true → place ρ q ≠ some (.alloca p.r) := by
    intro j q hq hch hp
    by_cases hL : p.L b
    · exact hcall (p.writes b i o j q hL ha hq hch hp)
    · exact p.outside b i o q hL ha (List.mem_of_getElem? hq) hp
  have hown : ownRoot o ≠ some (.alloca p.r) := fun h => hall (p.only b i o hr ha h)
  have harg : ∀ j q, o.operands[j]? = some q → blind o j = false → place ρ q = some (.alloca p.r) →
      s.cells (.alloca p.r) = s'.cells (.alloca p.r) := by
    intro j q hq hbl hp
    have hch : changes o j = false := by
      cases h : changes o j with
      | false => rfl
      | true => exact absurd hp (hc j q hq h)
    rw [hin.fact (must.reads ha hq hbl hch hp htr), hin.cell]
  obtain ⟨t', ht', hs⟩ := hin.rel.exec harg hc ht
  refine ⟨t', ht', ?_⟩
  cases hs with
  | stop => exact .stop
  | @next t₁ t₁' hrel =>
    have hreach := hnext _ rfl
    refine .next ⟨⟨hreach, hrel, ?_⟩, ?_, ?_, ?_, ?_⟩
    · intro m l hl hd
      rcases ht'.marks m with h | ⟨_, _, h⟩
      · rw [h] at hl; exact hin.marked m l hl hd
      · rw [h] at hl; cases hl; exact hin.live
    · rcases ht'.live hin.live with h | ⟨hk, m, l, hm, hl, hf⟩
      · exact h
      · rw [p.kept wf hr ha hk hm hin.marked hl] at hf; simp at hf
    · rcases ht'.cells hc hown with h | ⟨_, hk, m, l, x, hm, hl, hx, hf⟩
      · rw [h]; exact hin.cell
      · cases hx
        rw [p.kept wf hr ha hk hm hin.marked hl] at hf; simp at hf
    · intro hf
      rcases hfact hf with hg | hf'
      · rcases hg with ⟨j, q, hq, hch, hp⟩ | ⟨hg, _⟩
        · exact absurd hp (hc j q hq hch)
        · exact absurd hg hown
      · rcases ht.cells hc hown with h | ⟨h, _⟩
        · rw [h]; exact hin.fact hf'
        · exact absurd h ((holds _ _ _ hreach).1 _ htr hf)
    · intro j q hq
      obtain ⟨h1, h2⟩ := hin.frozen j q hq
      have hj := lt_of_getElem? hq
      refine ⟨?_, ?_⟩
      · rw [← h1]
        cases q with
        | reg x =>
          simp only [State.val]
          apply ht.vals
          by_cases hlast : j + 1 < p.op.operands.length
          · exact .inl ((p.inputs j _ hq hlast).2.2.2 x rfl b i o hr ha)
          · have : j = p.op.operands.length - 1 := by omega
            rw [this, p.hlast] at hq
            cases hq
            by_cases hres : o.result = some p.r
            · right; rw [p.result b i o ha hres]; simp
            · exact .inl hres
        | param _ => rfl
        | func _ => rfl
        | other _ => rfl
      · intro hlast q' hq'
        obtain ⟨-, g2, g3, -⟩ := p.inputs j q hq hlast
        rcases ht.cells (q := q') (fun j' u hu hch => g2 q' hq' b i o j' u hr ha hu hch) (g3 q' hq' b i o hr ha) with h | ⟨h, _⟩
        · rw [h]; exact h2 hlast q' hq'
        · exact .inr h

theorem after_last {ρ : Reg → Option Root} {op : Op} {l : List (Option V)} {c : Root → Option V} {q : Root} {o : Operand}
    (h1 : 1 ≤ op.operands.length) (ho : op.operands[op.operands.length - 1]? = some o) (hp : place ρ o = some q)
    (hc : changes op (op.operands.length - 1) = true) : after ρ op l c q = (l[op.operands.length - 1]?).getD none := by
  unfold after
  obtain ⟨n, hn⟩ : ∃ n, op.operands.length = n + 1 := ⟨op.operands.length - 1, by omega⟩
  rw [hn] at ho hc ⊢
  simp only [Nat.add_sub_cancel] at ho hc ⊢
  rw [List.range_succ, List.foldl_append]
  simp only [List.foldl_cons, List.foldl_nil, ho, Option.bind_some, hp, hc, if_true, upd]

theorem Plan.call_not (p : Plan F ρ) : p.op.kind ≠ .stackSave ∧ p.op.kind ≠ .stackRestore := by
  rw [p.kind]; exact ⟨by simp, by simp⟩

theorem Plan.call_blind (p : Plan F ρ) (j : Nat) : blind p.op j = decide (j + 1 = p.op.operands.length) := by
  unfold blind; rw [p.kind]

/-- The call, where it was. -/
theorem Plan.inner_call (wf : Wf F) (must : Must F ρ tracked facts) (holds : Holds sem ρ F tracked facts s₀)
    (htri : ∀ (j : Nat) o q, p.op.operands[j]? = some o → place ρ o = some q → tracked q)
    {sk : State V W} {v : V} (known : p.Known sem sk v) {s s' : State V W}
    (hin : p.Inner sem s₀ facts sk v p.cb p.ci s s') {t : Step V W} (ht : Exec sem ρ p.op s t) :
    ∃ t₁, t = .next t₁ ∧ p.Inner sem s₀ facts sk v p.cb (p.ci + 1) t₁ s' := by
  have ha : At F p.cb p.ci p.op := .ofOps p.hcblk p.hop
  have hargs : s.args ρ p.op = sk.args ρ p.op := by
    unfold State.args
    apply List.ext_getElem?
    intro j
    simp only [List.getElem?_mapIdx]
    cases ho : p.op.operands[j]? with
    | none => rfl
    | some o =>
      have hj := lt_of_getElem? ho
      simp only [Option.map_some, Option.some.injEq, Prod.mk.injEq]
      obtain ⟨h1, h2⟩ := hin.frozen j o ho
      refine ⟨h1, ?_⟩
      rw [p.call_blind j]
      by_cases hl : j + 1 = p.op.operands.length
      · simp [hl]
      · simp only [hl, decide_false, Bool.false_eq_true, if_false, State.content]
        cases hp : place ρ o with
        | none => rfl
        | some q =>
          simp only
          have hch : changes p.op j = false := by
            have := (p.hchanges j hj).not.mpr hl
            simpa using this
          have hf : facts p.cb p.ci (.init q) := must.reads ha ho (by rw [p.call_blind j]; simpa using hl) hch hp
            (htri j o q ho hp)
          rcases h2 (by omega) q hp with h | h
          · exact h
          · exact absurd h ((holds _ _ _ hin.reach).1 q (htri j o q ho hp) hf)
  obtain ⟨res, l, hsem, hv⟩ := known.call s.world
  have hcall := p.call_not
  have hres : p.op.result = none := wf.calls ha p.kind
  have ht0 := ht
  cases ht with
  | save h => exact absurd h hcall.1
  | restore h => exact absurd h hcall.2
  | stop h1 h2 h3 h4 => rw [hargs, hsem] at h4; simp at h4
  | op h1 h2 h3 h4 =>
    rw [hargs, hsem] at h4
    cases h4
    have hdef : ∀ st : State V W, st.define p.op res = st := by
      intro st; unfold State.define; rw [hres]
    rw [hdef] at ht0 ⊢
    have hcell : ∀ q, q ≠ .alloca p.r → after ρ p.op l s.cells q = s.cells q := by
      intro q hq
      apply after_eq
      intro j o ho hch hp
      have hj := (p.hchanges j (lt_of_getElem? ho)).mp hch
      have : j = p.op.operands.length - 1 := by omega
      rw [this, p.hlast] at ho
      cases ho
      simp only [place, p.hroot, Option.some.injEq] at hp
      exact hq hp.symm
    have hr : after ρ p.op l s.cells (.alloca p.r) = some v := by
      rw [after_last p.opnds p.hlast (by simp only [place, p.hroot])
        ((p.hchanges _ (by have := p.opnds; omega)).mpr (by have := p.opnds; omega)), hv]
    refine ⟨_, rfl, ⟨⟨.op hin.reach p.hcblk p.hop ht0, ?_, hin.marked⟩, hin.live, hin.cell, fun _ => hr, ?_⟩⟩
    · exact ⟨hin.rel.vals, hin.rel.world, fun q hq => by rw [← hin.rel.cells q hq]; exact hcell q hq, hin.rel.live,
        hin.rel.marks⟩
    · intro j o ho
      obtain ⟨g1, g2⟩ := hin.frozen j o ho
      refine ⟨g1, fun hl q hq => ?_⟩
      have : q ≠ .alloca p.r := by
        rintro rfl
        exact (p.inputs j o ho hl).1 hq
      simp only
      rw [hcell q this]
      exact g2 hl q hq

/-- Making the storage, where it was. -/
theorem Plan.inner_alloca (calm : Calm sem p) (must : Must F ρ tracked facts) (hm : p.moved)
    {sk : State V W} {v : V} {s s' : State V W} (hin : p.Inner sem s₀ facts sk v p.ab p.ai s s') {t : Step V W}
    (ht : Exec sem ρ p.aop s t) : ∃ t₁, t = .next t₁ ∧ p.Inner sem s₀ facts sk v p.ab (p.ai + 1) t₁ s' := by
  obtain ⟨hL, ⟨blk, hblk, hop⟩, hown, hops⟩ := p.hmoved hm
  have ha : At F p.ab p.ai p.aop := .ofOps hblk hop
  obtain ⟨ty, hty⟩ := p.alloca _ _ _ ha hown
  have hargs : s.args ρ p.aop = [] := by simp [State.args, hops]
  obtain ⟨res, l, hsem⟩ := calm.alloca hm s.world
  have ht0 := ht
  cases ht with
  | save h => rw [hty] at h; simp at h
  | restore h => rw [hty] at h; simp at h
  | stop h1 h2 h3 h4 => rw [hargs, hsem] at h4; simp at h4
  | op h1 h2 h3 h4 =>
    rw [hargs, hsem] at h4
    cases h4
    have hafter : after ρ p.aop l s.cells = s.cells := by
      funext q; apply after_eq; intro i o ho; simp [hops] at ho
    have hres : p.aop.result = some p.r := by
      unfold ownRoot at hown
      cases hr : p.aop.result with
      | none => simp [hr] at hown
      | some x => simp only [hr, hty, Option.some.injEq, Root.alloca.injEq] at hown; rw [hown]
    have hdef : State.define { s with cells := after ρ p.aop l s.cells, world := s.world } p.aop res =
        { s with live := upd s.live p.r true, cells := upd s.cells (.alloca p.r) none } := by
      unfold State.define
      simp only [hres, hown, hafter, hty]
    rw [hdef] at ht0 ⊢
    refine ⟨_, rfl, ⟨⟨.op hin.reach hblk hop ht0, ?_, hin.marked⟩, hin.live, hin.cell, ?_, ?_⟩⟩
    · refine ⟨hin.rel.vals, hin.rel.world, fun q hq => ?_, fun x hx => ?_, hin.rel.marks⟩
      · simp only [upd, hq, if_false]; exact hin.rel.cells q hq
      · simp only [upd, hx hm, if_false]; exact hin.rel.live x hx
    · intro hf
      rcases must.back hblk hop hf with hg | ⟨he, _⟩
      · rcases hg with ⟨j, o, ho, _⟩ | ⟨_, hk⟩
        · simp [hops] at ho
        · exact absurd hty (hk ty)
      · exact absurd ⟨hown, ty, hty⟩ he
    · intro j o ho
      obtain ⟨g1, g2⟩ := hin.frozen j o ho
      refine ⟨g1, fun hl q hq => ?_⟩
      have : q ≠ .alloca p.r := by
        rintro rfl
        exact (p.inputs j o ho hl).1 hq
      simp only [upd, this, if_false]
      exact g2 hl q hq

/-- What is inserted. -/
def Plan.ins [Decidable p.moved] : List Op := if p.moved then [p.aop, p.op] else [p.op]

/-- The inserted operations. -/
theorem Plan.insert [Decidable p.moved] (wf : Wf F) (calm : Calm sem p) (must : Must F ρ tracked facts)
    (holds : Holds sem ρ F tracked facts s₀) (fresh : Fresh s₀) (htr : tracked (.alloca p.r))
    (htri : ∀ (j : Nat) o q, p.op.operands[j]? = some o → place ρ o = some q → tracked q) {s s' : State V W}
    (h : p.Outer sem s₀ p.P p.k s s') :
    ∃ s₁ v, ExecAll sem ρ p.ins s' (.next s₁) ∧ p.Known sem s v ∧ p.Inner sem s₀ facts s v p.P p.k s s₁ := by
  have ha : At F p.cb p.ci p.op := .ofOps p.hcblk p.hop
  have hreachc : Avoids F (fun _ => False) p.cb := wf.reachable _ (lt_of_getElem? p.hcblk)
  have hci : p.ci ≤ p.cblk.ops.length := (lt_of_getElem? p.hop).le
  have hinit : ∀ j o q, p.op.operands[j]? = some o → j + 1 < p.op.operands.length → place ρ o = some q →
      s.cells q ≠ none := by
    intro j o q ho hl hp
    have hch : changes p.op j = false := by
      have := (p.hchanges j (by omega)).not.mpr (by omega)
      simpa using this
    have hf : facts p.cb p.ci (.init q) := must.reads ha ho
      (by rw [p.call_blind j]; simp; omega) hch hp (htri j o q ho hp)
    obtain ⟨-, g2, g3, -⟩ := p.inputs j o ho hl
    have := p.facts_insertion must (φ := .init q) (by
      rintro b i op hr hat (⟨j', u, hu, hc', hp'⟩ | ⟨hown, _⟩)
      · exact g2 q hp b i op j' u hr hat hu hc' hp'
      · exact g3 q hp b i op hr hat hown) hreachc p.Lcall p.ci p.cblk p.hcblk hci hf
    exact (holds _ _ _ h.reach).1 q (htri j o q ho hp) this
  obtain ⟨v, hv⟩ := calm.call (s.args ρ p.op) (by simp [State.args]) (by
    intro j o q ho hl hp
    refine ⟨(s.val o, s.cells q), ?_, hinit j o q ho hl hp⟩
    simp only [State.args, List.getElem?_mapIdx, ho, Option.map_some, p.call_blind j, State.content, hp]
    have : ¬ j + 1 = p.op.operands.length := by omega
    simp [this])
  -- the state in which the call runs
  have step : ∀ sa : State V W, Rel p.moved p.r s sa → p.Mk sa → sa.live p.r = true →
      ∃ s₁, Exec sem ρ p.op sa (.next s₁) ∧ p.Inner sem s₀ facts s v p.P p.k s s₁ := by
    intro sa hrel hmk hlive
    have hargs : s.args ρ p.op = sa.args ρ p.op := by
      apply hrel.args
      intro j o ho hbl hp
      have hl : j + 1 < p.op.operands.length := by
        have := lt_of_getElem? ho
        rw [p.call_blind j] at hbl
        have : j + 1 ≠ p.op.operands.length := by simpa using hbl
        omega
      exact absurd hp (p.inputs j o ho hl).1
    obtain ⟨res, l, hsem, hl⟩ := hv sa.world
    have hdef : ∀ st : State V W, st.define p.op res = st := by
      intro st; unfold State.define; rw [wf.calls ha p.kind]
    have hex : Exec sem ρ p.op sa (.next (State.define { sa with cells := after ρ p.op l sa.cells, world := sa.world } p.op res)) := by
      refine .op p.call_not.1 p.call_not.2 ?_ (by rw [← hargs]; exact hsem)
      intro j o ho hch x hx
      have hj := (p.hchanges j (lt_of_getElem? ho)).mp hch
      have : j = p.op.operands.length - 1 := by omega
      rw [this, p.hlast] at ho
      cases ho
      simp only [place, p.hroot, Option.some.injEq, Root.alloca.injEq] at hx
      rw [← hx]; exact hlive
    rw [hdef] at hex
    refine ⟨_, hex, ⟨⟨h.reach, ?_, hmk⟩, hlive, ?_, ?_, ?_⟩⟩
    · refine ⟨hrel.vals, hrel.world, fun q hq => ?_, hrel.live, hrel.marks⟩
      simp only
      rw [hrel.cells q hq]
      symm
      apply after_eq
      intro j o ho hch hp
      have hj := (p.hchanges j (lt_of_getElem? ho)).mp hch
      have : j = p.op.operands.length - 1 := by omega
      rw [this, p.hlast] at ho
      cases ho
      simp only [place, p.hroot, Option.some.injEq] at hp
      exact hq hp.symm
    · simp only
      rw [after_last p.opnds p.hlast (by simp only [place, p.hroot])
        ((p.hchanges _ (by have := p.opnds; omega)).mpr (by have := p.opnds; omega)), hl]
    · intro hf
      exact absurd hf (p.no_init must holds fresh htr (p.avoids wf) _ _ p.hpre p.hk)
    · intro j o ho
      exact ⟨rfl, fun _ _ _ => .inl rfl⟩
  by_cases hm : p.moved
  · obtain ⟨hL, ⟨blk, hblk, hop⟩, hown, hops⟩ := p.hmoved hm
    obtain ⟨ty, hty⟩ := p.alloca _ _ _ (.ofOps hblk hop) hown
    obtain ⟨res, l, hsem⟩ := calm.alloca hm s'.world
    have hafter : after ρ p.aop l s'.cells = s'.cells := by
      funext q; apply after_eq; intro i o ho; simp [hops] at ho
    have hres : p.aop.result = some p.r := by
      unfold ownRoot at hown
      cases hr : p.aop.result with
      | none => simp [hr] at hown
      | some x => simp only [hr, hty, Option.some.injEq, Root.alloca.injEq] at hown; rw [hown]
    have hdef : State.define { s' with cells := after ρ p.aop l s'.cells, world := s'.world } p.aop res =
        { s' with live := upd s'.live p.r true, cells := upd s'.cells (.alloca p.r) none } := by
      unfold State.define
      simp only [hres, hown, hafter, hty]
    have hex : Exec sem ρ p.aop s' (.next (State.define { s' with cells := after ρ p.aop l s'.cells, world := s'.world } p.aop res)) := by
      refine .op (by rw [hty]; simp) (by rw [hty]; simp) ?_ (by simpa [State.args, hops] using hsem)
      intro i o ho; simp [hops] at ho
    rw [hdef] at hex
    obtain ⟨s₁, h1, h2⟩ := step { s' with live := upd s'.live p.r true, cells := upd s'.cells (.alloca p.r) none }
      ⟨h.rel.vals, h.rel.world, fun q hq => by simp only [upd, hq, if_false]; exact h.rel.cells q hq,
        fun x hx => by simp only [upd, hx hm, if_false]; exact h.rel.live x hx, h.rel.marks⟩ h.marked (by simp [upd])
    refine ⟨s₁, v, ?_, ⟨hv⟩, h2⟩
    simp only [Plan.ins, hm, if_true]
    exact .cons hex (.cons h1 .nil)
  · have hlive : s'.live p.r = true := by
      rw [← h.rel.live p.r (fun h => absurd h hm)]
      have hf : facts p.cb p.ci (.live p.r) := must.writes ha p.hlast
        ((p.hchanges _ (by have := p.opnds; omega)).mpr (by have := p.opnds; omega)) (by simp only [place, p.hroot])
      have := p.facts_insertion must (φ := .live p.r) (by
        intro b i op hr hat hg
        exact hm (p.only b i op hr hat hg).1) hreachc p.Lcall p.ci p.cblk p.hcblk hci hf
      exact (holds _ _ _ h.reach).2 _ this
    obtain ⟨s₁, h1, h2⟩ := step s' h.rel h.marked hlive
    refine ⟨s₁, v, ?_, ⟨hv⟩, h2⟩
    simp only [Plan.ins, hm, if_false]
    exact .cons h1 .nil

/-- An operation outside the region. -/
theorem Plan.outer_exec (wf : Wf F) {b i b₂ i₂ : Nat} {s s' : State V W} {o : Op}
    (h : p.Outer sem s₀ b i s s') (hL : ¬ p.L b) (hr : ¬ p.Region b i) (ha : At F b i o) {t : Step V W}
    (ht : Exec sem ρ o s t) (hnext : ∀ t₁, t = .next t₁ → Reach sem ρ F s₀ b₂ i₂ t₁) :
    ∃ t', Exec sem ρ o s' t' ∧ Sim (p.Outer sem s₀ b₂ i₂) t t' := by
  obtain ⟨t', ht', hs⟩ := h.rel.exec
    (fun j q hq _ hp => absurd hp (p.outside b i o q hL ha (List.mem_of_getElem? hq)))
    (fun j q hq _ => p.outside b i o q hL ha (List.mem_of_getElem? hq)) ht
  refine ⟨t', ht', ?_⟩
  cases hs with
  | stop => exact .stop
  | @next t₁ t₁' hrel =>
    refine .next ⟨hnext _ rfl, hrel, ?_⟩
    intro m l hl hd
    rcases ht'.marks m with h' | ⟨_, hres, h'⟩
    · rw [h'] at hl; exact h.marked m l hl hd
    · obtain ⟨d, j, o', ho', hres', hreg⟩ := hd
      obtain ⟨rfl, rfl⟩ := wf.single ha ho' hres hres'
      exact absurd hreg hr

/-! ## Blocks -/

/-- A list without some of its elements. -/
inductive Keep {α : Type} (rm : Nat → Prop) : Nat → List α → List α → Prop
  | nil {i} : Keep rm i [] []
  | skip {i a l l'} : rm i → Keep rm (i + 1) l l' → Keep rm i (a :: l) l'
  | keep {i a l l'} : ¬ rm i → Keep rm (i + 1) l l' → Keep rm i (a :: l) (a :: l')

/-- What moves out of a block. -/
def Plan.rm (b i : Nat) : Prop := (b = p.cb ∧ i = p.ci) ∨ (p.moved ∧ b = p.ab ∧ i = p.ai)

theorem getElem?_of_drop {α : Type} {l rest : List α} {i : Nat} {a : α} (h : l.drop i = a :: rest) :
    l[i]? = some a ∧ l.drop (i + 1) = rest := by
  constructor
  · have : (l.drop i)[0]? = some a := by rw [h]; rfl
    rwa [List.getElem?_drop, Nat.add_zero] at this
  · rw [← List.drop_drop, h]; rfl

theorem Plan.inner_ops (wf : Wf F) (calm : Calm sem p) (must : Must F ρ tracked facts)
    (holds : Holds sem ρ F tracked facts s₀) (htr : tracked (.alloca p.r))
    (htri : ∀ (j : Nat) o q, p.op.operands[j]? = some o → place ρ o = some q → tracked q)
    {sk : State V W} {v : V} (known : p.Known sem sk v) {b : Nat} {blk : Block} (hblk : F[b]? = some blk)
    (hreg : ∀ j, p.L b ∨ (b = p.P ∧ (p.k ≤ j → p.Region b j))) {l l' : List Op} {i : Nat} (hk : Keep (p.rm b) i l l') :
    ∀ {s s' : State V W} {t : Step V W}, (p.L b ∨ p.k ≤ i) → blk.ops.drop i = l → p.Inner sem s₀ facts sk v b i s s' →
      ExecAll sem ρ l s t →
      ∃ t', ExecAll sem ρ l' s' t' ∧ Sim (p.Inner sem s₀ facts sk v b blk.ops.length) t t' := by
  induction hk with
  | nil =>
    rename_i i
    intro s s' t hi hl hin ht
    cases ht
    refine ⟨_, .nil, .next ?_⟩
    have hge : blk.ops.length ≤ i := by simpa using hl
    rcases Nat.lt_or_ge blk.ops.length i with h | h
    · -- the index of a state is never after the end
      exact absurd hin.reach (by
        intro hr
        have : ∀ {b i : Nat} {s : State V W}, Reach sem ρ F s₀ b i s → ∀ blk, F[b]? = some blk → i ≤ blk.ops.length := by
          intro b i s hr
          cases hr with
          | start => intro blk _; exact Nat.zero_le _
          | op _ hb ho _ =>
            intro blk hb'
            rw [hb] at hb'; cases hb'
            exact lt_of_getElem? ho
          | edge => intro blk _; exact Nat.zero_le _
        have := this hr blk hblk
        omega)
    · have : i = blk.ops.length := by omega
      rw [← this]; exact hin
  | @skip i a l l' hrm hk ih =>
    intro s s' t hi hl hin ht
    obtain ⟨hget, hdrop⟩ := getElem?_of_drop hl
    have hi' : p.L b ∨ p.k ≤ i + 1 := hi.imp id (by omega)
    rcases hrm with ⟨rfl, rfl⟩ | ⟨hm, rfl, rfl⟩
    · have hop : a = p.op := by
        rw [p.hcblk] at hblk; cases hblk
        rw [p.hop] at hget; exact (Option.some.inj hget).symm
      subst hop
      cases ht with
      | stop hs =>
        obtain ⟨t₁, e, _⟩ := p.inner_call wf must holds htri known hin hs
        simp at e
      | cons hs hrest =>
        obtain ⟨t₁, e, h1⟩ := p.inner_call wf must holds htri known hin hs
        cases e
        exact ih hi' hdrop h1 hrest
    · obtain ⟨hL, ⟨blk', hblk', hop⟩, hown, hops⟩ := p.hmoved hm
      have hop : a = p.aop := by
        rw [hblk'] at hblk; cases hblk
        rw [hop] at hget; exact (Option.some.inj hget).symm
      subst hop
      cases ht with
      | stop hs =>
        obtain ⟨t₁, e, _⟩ := p.inner_alloca calm must hm hin hs
        simp at e
      | cons hs hrest =>
        obtain ⟨t₁, e, h1⟩ := p.inner_alloca calm must hm hin hs
        cases e
        exact ih hi' hdrop h1 hrest
  | @keep i a l l' hrm hk ih =>
    intro s s' t hi hl hin ht
    obtain ⟨hget, hdrop⟩ := getElem?_of_drop hl
    have hi' : p.L b ∨ p.k ≤ i + 1 := hi.imp id (by omega)
    have hr : p.Region b i := by
      rcases hi with h | h
      · exact .inl h
      · rcases hreg i with h' | ⟨_, h'⟩
        · exact .inl h'
        · exact h' h
    have hcall : ¬ (b = p.cb ∧ i = p.ci) := fun h => hrm (.inl h)
    have hall : ¬ (p.moved ∧ b = p.ab ∧ i = p.ai) := fun h => hrm (.inr h)
    cases ht with
    | stop hs =>
      obtain ⟨t', h1, h2⟩ := p.inner_exec wf must holds htr hin hr (.ofOps hblk hget) hcall hall hs
        (b₂ := b) (i₂ := i + 1) (by simp) (fun hf => (must.back hblk hget hf).imp id And.right)
      cases h2
      exact ⟨_, .stop h1, .stop⟩
    | cons hs hrest =>
      obtain ⟨t', h1, h2⟩ := p.inner_exec wf must holds htr hin hr (.ofOps hblk hget) hcall hall hs
        (b₂ := b) (i₂ := i + 1) (by rintro t₁ e; cases e; exact .op hin.reach hblk hget hs)
        (fun hf => (must.back hblk hget hf).imp id And.right)
      cases h2 with
      | next h2 =>
        obtain ⟨t'', h3, h4⟩ := ih hi' hdrop h2 hrest
        exact ⟨t'', .cons h1 h3, h4⟩

theorem Plan.outer_ops (wf : Wf F) {b : Nat} {blk : Block} (hblk : F[b]? = some blk) (hL : ¬ p.L b) :
    ∀ {l : List Op} {i : Nat} {s s' : State V W} {t : Step V W}, (b = p.P → i + l.length ≤ p.k) →
      (∀ j, j < l.length → blk.ops[i + j]? = l[j]?) → p.Outer sem s₀ b i s s' →
      ExecAll sem ρ l s t → ∃ t', ExecAll sem ρ l s' t' ∧ Sim (p.Outer sem s₀ b (i + l.length)) t t'
  | [], i, s, s', t, _, _, h, ht => by
    cases ht; exact ⟨_, .nil, .next h⟩
  | a :: l, i, s, s', t, hk, hl, h, ht => by
    have hget : blk.ops[i]? = some a := by simpa using hl 0 (by simp)
    have hr : ¬ p.Region b i := by
      rintro (h | ⟨rfl, h⟩)
      · exact hL h
      · have := hk rfl
        simp at this; omega
    cases ht with
    | stop hs =>
      obtain ⟨t', h1, h2⟩ := p.outer_exec wf h hL hr (.ofOps hblk hget) hs (b₂ := b) (i₂ := i + 1) (by simp)
      cases h2
      exact ⟨_, .stop h1, .stop⟩
    | cons hs hrest =>
      obtain ⟨t', h1, h2⟩ := p.outer_exec wf h hL hr (.ofOps hblk hget) hs (b₂ := b) (i₂ := i + 1)
        (by rintro t₁ e; cases e; exact .op h.reach hblk hget hs)
      cases h2 with
      | next h2 =>
        obtain ⟨t'', h3, h4⟩ := Plan.outer_ops wf hblk hL (l := l) (i := i + 1)
          (by intro e; have := hk e; simp at this; omega)
          (by intro j hj; have := hl (j + 1) (by simpa using hj)
              rw [show i + 1 + j = i + (j + 1) by omega]; simpa using this) h2 hrest
        refine ⟨t'', .cons h1 h3, ?_⟩
        have e : i + (a :: l).length = i + 1 + l.length := by simp; omega
        rw [e]; exact h4

theorem execAll_append {sem : Sem V W} {ρ : Reg → Option Root} {l₁ l₂ : List Op} {s : State V W} {t : Step V W} :
    ExecAll sem ρ (l₁ ++ l₂) s t ↔ (∃ w, t = .stop w ∧ ExecAll sem ρ l₁ s (.stop w)) ∨
      ∃ s₁, ExecAll sem ρ l₁ s (.next s₁) ∧ ExecAll sem ρ l₂ s₁ t := by
  induction l₁ generalizing s with
  | nil =>
    constructor
    · intro h; exact .inr ⟨s, .nil, h⟩
    · rintro (⟨w, _, h⟩ | ⟨s₁, h, h'⟩)
      · cases h
      · cases h; exact h'
  | cons a l ih =>
    constructor
    · intro h
      cases h with
      | stop h => exact .inl ⟨_, rfl, .stop h⟩
      | cons h h' =>
        rcases ih.mp h' with ⟨w, e, g⟩ | ⟨s₁, g, g'⟩
        · exact .inl ⟨w, e, .cons h g⟩
        · exact .inr ⟨s₁, .cons h g, g'⟩
    · rintro (⟨w, rfl, h⟩ | ⟨s₁, h, h'⟩)
      · cases h with
        | stop h => exact .stop h
        | cons h g => exact .cons h (ih.mpr (.inl ⟨w, rfl, g⟩))
      · cases h with
        | cons h g => exact .cons h (ih.mpr (.inr ⟨s₁, g, h'⟩))

/-! ## Runs -/

/-- The function after the move. -/
def Plan.Result [Decidable p.moved] (F' : Fn) : Prop :=
  ∀ b blk, F[b]? = some blk → ∃ ops', F'[b]? = some ⟨ops', blk.term⟩ ∧ (p.L b → Keep (p.rm b) 0 blk.ops ops') ∧
    (¬ p.L b → b ≠ p.P → ops' = blk.ops) ∧
    (b = p.P → ops' = blk.ops.take p.k ++ (p.ins ++ blk.ops.drop p.k))

/-- States at the beginning of a block. -/
def Plan.Start (sem : Sem V W) (s₀ : State V W) (facts : Nat → Nat → Fact → Prop) (b : Nat) (s s' : State V W) : Prop :=
  p.Outer sem s₀ b 0 s s' ∧ (p.L b → ∃ sk v, p.Known sem sk v ∧ p.Inner sem s₀ facts sk v b 0 s s')

/-- States before the terminator. -/
def Plan.Mid (sem : Sem V W) (s₀ : State V W) (facts : Nat → Nat → Fact → Prop) (b : Nat) (blk : Block)
    (s s' : State V W) : Prop :=
  p.Outer sem s₀ b blk.ops.length s s' ∧
    (p.L b ∨ b = p.P → ∃ sk v, p.Known sem sk v ∧ p.Inner sem s₀ facts sk v b blk.ops.length s s')

theorem keep_all {α : Type} {rm : Nat → Prop} (h : ∀ i, ¬ rm i) : ∀ (l : List α) (i : Nat), Keep rm i l l
  | [], _ => .nil
  | _ :: l, i => .keep (h i) (keep_all h l (i + 1))

theorem Plan.not_rm {b : Nat} (hb : ¬ p.L b) (i : Nat) : ¬ p.rm b i := by
  rintro (⟨rfl, _⟩ | ⟨hm, rfl, _⟩)
  · exact hb p.Lcall
  · exact hb (p.hmoved hm).1

theorem Sim.imp {R R' : State V W → State V W → Prop} (h : ∀ s s', R s s' → R' s s') {t t' : Step V W} (hs : Sim R t t') :
    Sim R' t t' := by
  cases hs with
  | stop => exact .stop
  | next hr => exact .next (h _ _ hr)

theorem Plan.block_ops [Decidable p.moved] (wf : Wf F) (calm : Calm sem p) (must : Must F ρ tracked facts)
    (holds : Holds sem ρ F tracked facts s₀) (fresh : Fresh s₀) (htr : tracked (.alloca p.r))
    (htri : ∀ (j : Nat) o q, p.op.operands[j]? = some o → place ρ o = some q → tracked q)
    {b : Nat} {blk : Block} (hblk : F[b]? = some blk) {ops' : List Op}
    (h1 : p.L b → Keep (p.rm b) 0 blk.ops ops') (h2 : ¬ p.L b → b ≠ p.P → ops' = blk.ops)
    (h3 : b = p.P → ops' = blk.ops.take p.k ++ (p.ins ++ blk.ops.drop p.k)) {s s' : State V W} {t : Step V W}
    (hs : p.Start sem s₀ facts b s s') (ht : ExecAll sem ρ blk.ops s t) :
    ∃ t', ExecAll sem ρ ops' s' t' ∧ Sim (p.Mid sem s₀ facts b blk) t t' := by
  by_cases hL : p.L b
  · obtain ⟨sk, v, known, hin⟩ := hs.2 hL
    obtain ⟨t', ht', hsim⟩ := p.inner_ops wf calm must holds htr htri known hblk (fun _ => .inl hL) (h1 hL) (.inl hL)
      (by simp) hin ht
    exact ⟨t', ht', hsim.imp fun _ _ h => ⟨h.toOuter, fun _ => ⟨sk, v, known, h⟩⟩⟩
  · by_cases hP : b = p.P
    · have hpre : blk = p.pre := by
        rw [hP, p.hpre] at hblk; exact (Option.some.inj hblk).symm
      have hk : p.k ≤ blk.ops.length := hpre ▸ p.hk
      have htake : (blk.ops.take p.k).length = p.k := by simp [hk]
      rw [h3 hP]
      rw [← List.take_append_drop p.k blk.ops] at ht
      have hget : ∀ j, j < (blk.ops.take p.k).length → blk.ops[0 + j]? = (blk.ops.take p.k)[j]? := by
        intro j hj
        rw [htake] at hj
        rw [List.getElem?_take_of_lt hj]; simp
      rcases execAll_append.mp ht with ⟨w, rfl, hstop⟩ | ⟨s₁, hnext, hrest⟩
      · obtain ⟨t', ht', hsim⟩ := p.outer_ops wf hblk hL (by intro _; rw [htake]; omega) hget hs.1 hstop
        cases hsim
        exact ⟨_, execAll_append.mpr (.inl ⟨_, rfl, ht'⟩), .stop⟩
      · obtain ⟨t', ht', hsim⟩ := p.outer_ops wf hblk hL (by intro _; rw [htake]; omega) hget hs.1 hnext
        cases hsim with
        | @next _ s₁' hout =>
          rw [htake, Nat.zero_add] at hout
          subst hP
          obtain ⟨s₂, v, hins, known, hin⟩ := p.insert wf calm must holds fresh htr htri hout
          obtain ⟨t'', ht'', hsim⟩ := p.inner_ops wf calm must holds htr htri known hblk
            (fun j => .inr ⟨rfl, fun hj => .inr ⟨rfl, hj⟩⟩) (keep_all (p.not_rm hL) (blk.ops.drop p.k) p.k)
            (.inr (Nat.le_refl _)) rfl hin hrest
          refine ⟨t'', execAll_append.mpr (.inr ⟨s₁', ht', execAll_append.mpr (.inr ⟨s₂, hins, ht''⟩)⟩), ?_⟩
          exact hsim.imp fun _ _ h => ⟨h.toOuter, fun _ => ⟨s₁, v, known, h⟩⟩
    · rw [h2 hL hP]
      obtain ⟨t', ht', hsim⟩ := p.outer_ops wf hblk hL (fun e => absurd e hP) (by intro j _; simp) hs.1 ht
      refine ⟨t', ht', hsim.imp fun _ _ h => ⟨by simpa using h, ?_⟩⟩
      rintro (h' | h')
      · exact absurd h' hL
      · exact absurd h' hP

/-- Terminators: they go to the same block. -/
theorem Plan.block_term (wf : Wf F) (must : Must F ρ tracked facts) (holds : Holds sem ρ F tracked facts s₀)
    (fresh : Fresh s₀) (htr : tracked (.alloca p.r)) {b : Nat} {blk : Block} (hblk : F[b]? = some blk)
    {s s' : State V W} (hs : p.Mid sem s₀ facts b blk s s') :
    blk.term.target sem ρ s = blk.term.target sem ρ s' ∧
    ∀ t, ExecAll sem ρ blk.term.op.toList s t → ∃ t', ExecAll sem ρ blk.term.op.toList s' t' ∧
      (∀ w, t = .stop w → t' = .stop w) ∧
      ∀ s₁, t = .next s₁ → ∃ s₁', t' = .next s₁' ∧ ∀ c, blk.term.target sem ρ s = some c →
        p.Start sem s₀ facts c s₁ s₁' := by
  have hsucc : ∀ c, blk.term.target sem ρ s = some c → c ∈ F.successors b := by
    intro c hc
    unfold Fn.successors
    rw [hblk]
    simp only
    cases hterm : blk.term with
    | goto t => simp only [hterm, Term.target, Option.some.injEq] at hc; simp [Term.successors, hc]
    | condBr o x y =>
      simp only [hterm, Term.target, Option.some.injEq] at hc
      simp only [Term.successors, List.mem_cons, List.not_mem_nil, or_false]
      split at hc
      · exact .inl hc.symm
      · exact .inr hc.symm
    | invoke o x y =>
      simp only [hterm, Term.target, Option.some.injEq] at hc
      simp only [Term.successors, List.mem_cons, List.not_mem_nil, or_false]
      split at hc
      · exact .inl hc.symm
      · exact .inr hc.symm
    | yield o t => simp only [hterm, Term.target, Option.some.injEq] at hc; simp [Term.successors, hc]
    | leave t => simp [hterm, Term.target] at hc
  cases hop : blk.term.op with
  | none =>
    refine ⟨?_, ?_⟩
    · cases hterm : blk.term with
      | goto t => rfl
      | condBr o x y => simp [hterm, Term.op] at hop
      | invoke o x y => simp [hterm, Term.op] at hop
      | yield o t => simp [hterm, Term.op] at hop
      | leave t => rfl
    · intro t ht
      have hr : ∀ c, blk.term.target sem ρ s = some c → Reach sem ρ F s₀ c 0 s := fun c hc =>
        .edge hblk hs.1.reach (by rw [hop]; exact .nil) hc
      simp only [Option.toList_none] at ht ⊢
      cases ht
      refine ⟨_, .nil, by simp, ?_⟩
      rintro s₁ e
      cases e
      refine ⟨s', rfl, fun c hc => ⟨⟨hr c hc, hs.1.rel, hs.1.marked⟩, fun hLc => ?_⟩⟩
      have hin : p.L b ∨ b = p.P := (p.enter b c (hsucc c hc) hLc).imp id And.left
      obtain ⟨sk, v, known, h⟩ := hs.2 hin
      refine ⟨sk, v, known, ⟨⟨hr c hc, hs.1.rel, hs.1.marked⟩, h.live, h.cell, ?_, h.frozen⟩⟩
      intro hf
      rcases must.edge hblk (hsucc c hc) hf with ⟨op, ho, _⟩ | hf'
      · rw [hop] at ho; simp at ho
      · exact h.fact hf'
  | some o =>
    have ha : At F b blk.ops.length o := .ofTerm hblk hop
    have hP : b ≠ p.P := by
      rintro rfl
      have : blk = p.pre := by
        rw [p.hpre] at hblk; exact (Option.some.inj hblk).symm
      rw [this, p.hgoto] at hop
      simp [Term.op] at hop
    have hcall : ¬ (b = p.cb ∧ blk.ops.length = p.ci) := by
      rintro ⟨rfl, h⟩
      have h' := lt_of_getElem? p.hop
      rw [p.hcblk] at hblk; cases hblk
      omega
    have hall : ¬ (p.moved ∧ b = p.ab ∧ blk.ops.length = p.ai) := by
      rintro ⟨hm, rfl, h⟩
      obtain ⟨_, ⟨blk', hblk', ho⟩, _⟩ := p.hmoved hm
      have h' := lt_of_getElem? ho
      rw [hblk'] at hblk; cases hblk
      omega
    have hargs : s.args ρ o = s'.args ρ o := by
      apply hs.1.rel.args
      intro j q hq hbl hp
      by_cases hL : p.L b
      · obtain ⟨sk, v, known, h⟩ := hs.2 (.inl hL)
        have hch : changes o j = false := by
          cases hc : changes o j with
          | false => rfl
          | true => exact absurd (p.writes b _ o j q hL ha hq hc hp) hcall
        rw [h.fact (must.reads ha hq hbl hch hp htr), h.cell]
      · exact absurd hp (p.outside b _ o q hL ha (List.mem_of_getElem? hq))
    refine ⟨?_, ?_⟩
    · cases hterm : blk.term with
      | goto t => rfl
      | condBr o' x y =>
        simp only [hterm, Term.op, Option.some.injEq] at hop
        simp only [Term.target, hop, hargs, hs.1.rel.world]
      | invoke o' x y =>
        simp only [hterm, Term.op, Option.some.injEq] at hop
        simp only [Term.target, hop, hargs, hs.1.rel.world]
      | yield o' t => rfl
      | leave t => rfl
    · intro t ht
      simp only [Option.toList_some] at ht ⊢
      have hex : ∃ u, Exec sem ρ o s u ∧ u = t := by
        cases ht with
        | stop h => exact ⟨_, h, rfl⟩
        | cons h h' => cases h'; exact ⟨_, h, rfl⟩
      obtain ⟨u, hex, rfl⟩ := hex
      have one : ∀ {x y}, Exec sem ρ o x y → ExecAll sem ρ [o] x y := by
        intro x y hxy
        cases y with
        | stop w => exact .stop hxy
        | next z => exact .cons hxy .nil
      have hr : ∀ c, blk.term.target sem ρ s = some c → ∀ s₁, u = .next s₁ → Reach sem ρ F s₀ c 0 s₁ := by
        rintro c hc s₁ rfl
        exact .edge hblk hs.1.reach (by rw [hop]; exact one hex) hc
      by_cases hL : p.L b
      · obtain ⟨sk, v, known, h⟩ := hs.2 (.inl hL)
        obtain ⟨c, hc⟩ : ∃ c, blk.term.target sem ρ s = some c := by
          cases hterm : blk.term with
          | goto t => exact ⟨_, rfl⟩
          | condBr o' x y => exact ⟨_, rfl⟩
          | invoke o' x y => exact ⟨_, rfl⟩
          | yield o' t => exact ⟨_, rfl⟩
          | leave t => simp [hterm, Term.op] at hop
        obtain ⟨t', ht', hsim⟩ := p.inner_exec wf must holds htr h (.inl hL) ha hcall hall hex (b₂ := c) (i₂ := 0)
          (hr c hc) (fun hf => by
            rcases must.edge hblk (hsucc c hc) hf with ⟨op, ho, hg⟩ | hf'
            · rw [hop] at ho; cases ho; exact .inl hg
            · exact .inr hf')
        refine ⟨t', one ht', ?_, ?_⟩
        · rintro w rfl; cases hsim; rfl
        · rintro s₁ rfl
          cases hsim with
          | next hin =>
            refine ⟨_, rfl, fun c' hc' => ?_⟩
            rw [hc] at hc'; cases hc'
            exact ⟨hin.toOuter, fun _ => ⟨sk, v, known, hin⟩⟩
      · have hreg : ¬ p.Region b blk.ops.length := by
          rintro (h | ⟨h, _⟩)
          · exact hL h
          · exact hP h
        obtain ⟨c, hc⟩ : ∃ c, blk.term.target sem ρ s = some c := by
          cases hterm : blk.term with
          | goto t => exact ⟨_, rfl⟩
          | condBr o' x y => exact ⟨_, rfl⟩
          | invoke o' x y => exact ⟨_, rfl⟩
          | yield o' t => exact ⟨_, rfl⟩
          | leave t => simp [hterm, Term.op] at hop
        obtain ⟨t', ht', hsim⟩ := p.outer_exec wf hs.1 hL hreg ha hex (b₂ := c) (i₂ := 0) (hr c hc)
        refine ⟨t', one ht', ?_, ?_⟩
        · rintro w rfl; cases hsim; rfl
        · rintro s₁ rfl
          cases hsim with
          | next hout =>
            refine ⟨_, rfl, fun c' hc' => ?_⟩
            rw [hc] at hc'; cases hc'
            refine ⟨hout, fun hLc => ?_⟩
            rcases p.enter b c (hsucc c hc) hLc with h | ⟨h, _⟩
            · exact absurd h hL
            · exact absurd h hP

/-- Runs of the function with the call moved end as before. -/
theorem Plan.runs [Decidable p.moved] (wf : Wf F) (calm : Calm sem p) (must : Must F ρ tracked facts)
    (holds : Holds sem ρ F tracked facts s₀) (fresh : Fresh s₀) (htr : tracked (.alloca p.r))
    (htri : ∀ (j : Nat) o q, p.op.operands[j]? = some o → place ρ o = some q → tracked q)
    {F' : Fn} (hF : p.Result F') {n b : Nat} {s s' : State V W} {o : Out V W} (hr : Run sem ρ F n b s o)
    (hs : p.Start sem s₀ facts b s s') : ∃ o', Run sem ρ F' n b s' o' ∧ Out.Same p.r o o' := by
  induction hr generalizing s' with
  | running => exact ⟨_, .running, .running⟩
  | stopped hb h =>
    obtain ⟨ops', hb', h1, h2, h3⟩ := hF _ _ hb
    obtain ⟨t', ht', hsim⟩ := p.block_ops wf calm must holds fresh htr htri hb h1 h2 h3 hs h
    cases hsim
    exact ⟨_, .stopped hb' ht', .stopped⟩
  | stoppedTerm hb h ht =>
    obtain ⟨ops', hb', h1, h2, h3⟩ := hF _ _ hb
    obtain ⟨t', ht', hsim⟩ := p.block_ops wf calm must holds fresh htr htri hb h1 h2 h3 hs h
    cases hsim with
    | next hmid =>
      obtain ⟨_, hterm⟩ := p.block_term wf must holds fresh htr hb hmid
      obtain ⟨t'', ht'', hw, _⟩ := hterm _ ht
      rw [hw _ rfl] at ht''
      exact ⟨_, .stoppedTerm hb' ht' ht'', .stopped⟩
  | left hb h ht =>
    obtain ⟨ops', hb', h1, h2, h3⟩ := hF _ _ hb
    obtain ⟨t', ht', hsim⟩ := p.block_ops wf calm must holds fresh htr htri hb h1 h2 h3 hs h
    cases hsim with
    | next hmid =>
      refine ⟨_, .left hb' ht' ht, ?_⟩
      rw [hmid.1.rel.world]
      exact .left fun q hq => hmid.1.rel.cells q hq
  | next hb h ht hc _ ih =>
    obtain ⟨ops', hb', h1, h2, h3⟩ := hF _ _ hb
    obtain ⟨t', ht', hsim⟩ := p.block_ops wf calm must holds fresh htr htri hb h1 h2 h3 hs h
    cases hsim with
    | next hmid =>
      obtain ⟨htarget, hterm⟩ := p.block_term wf must holds fresh htr hb hmid
      obtain ⟨t'', ht'', _, hn⟩ := hterm _ ht
      obtain ⟨s₁', rfl, hstart⟩ := hn _ rfl
      obtain ⟨o', hrun, hsame⟩ := ih (hstart _ hc)
      exact ⟨o', .next hb' ht' ht'' (htarget ▸ hc) hrun, hsame⟩

end

end Ferlium.Licm
