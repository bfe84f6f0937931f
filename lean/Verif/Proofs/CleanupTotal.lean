import Verif.Proofs.CleanupMain

/-!
The lowering of well-formed bodies does not panic.
-/
namespace Ferlium.Cleanup

/-! ### Well-formed bodies -/

mutual
/-- The end of the node is not reached, by its form. -/
def ends : Node → Bool
  | .op _ _ => false
  | .block _ body => endsAll body
  | .case _ _ => false
  | .loop _ _ => false
  | .brk _ _ => true
  | .cont _ => true
  | .ret _ => true
  | .scoped _ _ _ _ _ body => ends body

def endsAll : Nodes → Bool
  | .nil => false
  | .cons n rest => ends n || endsAll rest
end

mutual
/-- Loops have labels of their own, `break` and `continue` are inside their loop, and nothing that has to be evaluated before
something else (a scrutinee, a returned value, what comes before a scoped access) ends by its form.  Statements after one that ends
need not be anything. -/
def WF (L : List Nat) : Node → Prop
  | .op _ _ => True
  | .block _ body => WFAll L body
  | .case n arms => WF L n ∧ ends n = false ∧ WFArms L arms
  | .loop l body => l ∉ L ∧ WF (l :: L) body
  | .brk l v => l ∈ L ∧ WF L v
  | .cont l => l ∈ L
  | .ret v => WF L v ∧ ends v = false
  | .scoped _ pre args _ _ body =>
    WFAll L pre ∧ endsAll pre = false ∧ WFAll L args ∧ endsAll args = false ∧ WF L body

def WFAll (L : List Nat) : Nodes → Prop
  | .nil => True
  | .cons n rest => WF L n ∧ (ends n = false → WFAll L rest)

def WFArms (L : List Nat) : Arms → Prop
  | .other n => WF L n
  | .alt _ n rest => WF L n ∧ WFArms L rest
end

/-! ### Blocks that are not terminated -/

/-- The blocks without terminator are the current one, those of `R`, and the pads. -/
def Open (R : Nat → Prop) (b : B) : Prop :=
  ∀ (i : Nat) (blk : Block), b.blocks[i]? = some blk → blk.term = none → i = b.point ∨ R i ∨ ∃ p ∈ b.pads, p.block = i

theorem Open.cast {R : Nat → Prop} {b b' : B} (h : Open R b) (h1 : b'.blocks = b.blocks) (h2 : b'.point = b.point)
    (h3 : b'.pads = b.pads) : Open R b' := by
  unfold Open
  rw [h1, h2, h3]
  exact h

theorem Open.mono {R S : Nat → Prop} {b : B} (h : Open R b) (hs : ∀ i, R i → S i) : Open S b := by
  intro i blk hi ht
  rcases h i blk hi ht with h | h | h
  · exact Or.inl h
  · exact Or.inr (Or.inl (hs i h))
  · exact Or.inr (Or.inr h)

theorem Open.move {R : Nat → Prop} {b : B} {r : Nat} (h : Open (fun i => i = r ∨ R i) b) (ht : b.terminated = true) :
    Open R { b with point := r } := by
  intro i blk hi hn
  rcases h i blk hi hn with h | h | h
  · subst h
    simp only at hi
    unfold B.terminated at ht
    rw [hi] at ht
    simp [hn] at ht
  · rcases h with h | h
    · exact Or.inl h
    · exact Or.inr (Or.inl h)
  · exact Or.inr (Or.inr h)

theorem Open.more {R : Nat → Prop} {b : B} (h : Open R b) (new : List Block) :
    Open (fun i => R i ∨ (b.blocks.length ≤ i ∧ ∃ blk, new[i - b.blocks.length]? = some blk ∧ blk.term = none))
      { b with blocks := b.blocks ++ new } := by
  intro i blk hi hn
  simp only at hi
  by_cases hlt : i < b.blocks.length
  · rw [List.getElem?_append_left hlt] at hi
    rcases h i blk hi hn with h | h | h
    · exact Or.inl h
    · exact Or.inr (Or.inl (Or.inl h))
    · exact Or.inr (Or.inr h)
  · rw [List.getElem?_append_right (by omega)] at hi
    exact Or.inr (Or.inl (Or.inr ⟨by omega, blk, hi, hn⟩))

theorem Open.addMany {R : Nat → Prop} {b : B} (h : Open R b) (n : Nat) :
    Open (fun i => (b.blocks.length ≤ i ∧ i < b.blocks.length + n) ∨ R i) (b.addMany n) := by
  refine (h.more (List.replicate n ⟨[], none⟩)).mono ?_
  rintro i (h | ⟨h1, blk, h2, -⟩)
  · exact Or.inr h
  · have := lt_of_get h2
    simp only [List.length_replicate] at this
    exact Or.inl ⟨h1, by omega⟩

theorem Open.add {R : Nat → Prop} {b : B} (h : Open R b) : Open (fun i => i = b.blocks.length ∨ R i) b.add := by
  refine (h.more [⟨[], none⟩]).mono ?_
  rintro i (h | ⟨h1, blk, h2, -⟩)
  · exact Or.inr h
  · have := lt_of_get h2
    simp only [List.length_singleton] at this
    exact Or.inl (by omega)

/-- A new terminated block. -/
theorem Open.addDone {R : Nat → Prop} {b : B} (h : Open R b) (t : Term) :
    Open R { b with blocks := b.blocks ++ [⟨[], some t⟩] } := by
  refine (h.more [⟨[], some t⟩]).mono ?_
  rintro i (h | ⟨h1, blk, h2, h3⟩)
  · exact h
  · exfalso
    have := lt_of_get h2
    simp only [List.length_singleton] at this
    have he : i - b.blocks.length = 0 := by omega
    rw [he] at h2
    simp only [List.getElem?_cons_zero, Option.some.injEq] at h2
    subst h2
    cases h3

/-- A reserved block becomes a pad. -/
theorem Open.push {R : Nat → Prop} {b : B} {r : Nat} (h : Open (fun i => i = r ∨ R i) b) (acts : List Op) (o : Option Nat) :
    Open R { b with pads := b.pads ++ [⟨r, acts, o⟩] } := by
  intro i blk hi hn
  rcases h i blk hi hn with h | h | ⟨p, h1, h2⟩
  · exact Or.inl h
  · rcases h with h | h
    · subst h
      exact Or.inr (Or.inr ⟨_, List.mem_append_right _ (List.mem_singleton.2 rfl), rfl⟩)
    · exact Or.inr (Or.inl h)
  · exact Or.inr (Or.inr ⟨p, List.mem_append_left _ h1, h2⟩)

theorem Open.set {R : Nat → Prop} {b : B} (h : Open R b) (blk : Block) :
    Open R { b with blocks := b.blocks.set b.point blk } := by
  intro i blk' hi hn
  by_cases hp : i = b.point
  · exact Or.inl hp
  · simp only at hi
    rw [List.getElem?_set_ne (Ne.symm hp)] at hi
    exact h i blk' hi hn

theorem append_total {R : Nat → Prop} {b : B} (ht : b.terminated = false) (h : Open R b) (o : Op) :
    ∃ b', b.append o = some b' ∧ b'.terminated = false ∧ Open R b' := by
  obtain ⟨ops, hb⟩ := terminated_false.1 ht
  refine ⟨_, by unfold B.append; rw [hb], ?_, h.set _⟩
  exact terminated_false.2 ⟨ops ++ [o], by simp only; rw [List.getElem?_set_self (lt_of_get hb)]⟩

theorem terminate_total {R : Nat → Prop} {b : B} (ht : b.terminated = false) (h : Open R b) (t : Term) :
    ∃ b', b.terminate t = some b' ∧ b'.terminated = true ∧ Open R b' := by
  obtain ⟨ops, hb⟩ := terminated_false.1 ht
  refine ⟨_, by unfold B.terminate; rw [hb], ?_, h.set _⟩
  unfold B.terminated
  simp only
  rw [List.getElem?_set_self (lt_of_get hb)]
  rfl

theorem padOf_open : ∀ (scs : List Scope) (R : Nat → Prop) (b : B), Open R b → Open R (padOf scs b).2.2
  | [], _, b, h => h
  | sc :: rest, R, b, h => by
    unfold padOf
    split
    · exact padOf_open rest R b h
    · split
      · exact h
      · exact (padOf_open rest _ b.add h.add).push _ _

theorem propBlock_open {R : Nat → Prop} {b : B} (h : Open R b) : Open R b.propBlock.2 := by
  unfold B.propBlock
  split
  · exact h
  · exact (h.addDone .propagate).cast rfl rfl rfl

theorem poisonBlock_open {R : Nat → Prop} {b : B} (h : Open R b) : Open R b.poisonBlock.2 := by
  unfold B.poisonBlock
  split
  · exact h
  · exact (h.addDone .poison).cast rfl rfl rfl

theorem innermost_open {R : Nat → Prop} {b : B} (h : Open R b) : Open R b.innermost.2 :=
  (padOf_open b.scopes R b h).cast rfl rfl rfl

theorem errorBlock_open {R : Nat → Prop} {b : B} (h : Open R b) (t : Target) : Open R (b.errorBlock t).2 := by
  cases t with
  | scope =>
    have := innermost_open h
    unfold B.errorBlock
    cases hi : b.innermost with
    | mk p b1 =>
      rw [hi] at this
      cases p with
      | some p => exact this
      | none => exact propBlock_open this
  | pad p => exact h
  | propagate => exact propBlock_open h
  | poison => exact poisonBlock_open h

theorem invoke_total {R : Nat → Prop} {b : B} (c : Core b) (hs : ScopesOk b.pads b.scopes) (ht : b.terminated = false)
    (h : Open R b) (t : Target) (o : Op) : ∃ b', b.invoke t o = some b' ∧ b'.terminated = false ∧ Open R b' := by
  obtain ⟨k1, k2, k3, k4, k5, k6, k7, k8⟩ := errorBlock_ok (add_core c) (t := t) hs
  have hlt : b.point < b.add.blocks.length := (add_core c).point
  have ht1 : (b.add.errorBlock t).2.terminated = false := by
    rw [← ht, ← (add_side b).terminated c]
    unfold B.terminated
    have e : b.add.point = b.point := rfl
    rw [k4, e, k3 _ hlt]
  have ho := errorBlock_open h.add t
  obtain ⟨b2, h1, h2, h3⟩ := terminate_total ht1 ho (.invoke o b.blocks.length (b.add.errorBlock t).1)
  have hinv : b.invoke t o = some { b2 with point := b.blocks.length } := by
    unfold B.invoke
    simp only [h1, Option.map_some]
  refine ⟨_, hinv, ?_, h3.move h2⟩
  obtain ⟨_, _, _, _, _, h6, _⟩ := invoke_ok c hs hinv
  exact terminated_false.2 ⟨[], h6⟩

theorem insert_total {R : Nat → Prop} {b : B} (f : Fine b) (ht : b.terminated = false) (h : Open R b) (o : Op) :
    ∃ b', b.insert o = some b' ∧ b'.terminated = false ∧ Open R b' ∧ b'.loops = b.loops := by
  unfold B.insert
  split
  · obtain ⟨b', h1, h2, h3⟩ := invoke_total f.core f.scopes ht h .scope o
    exact ⟨b', h1, h2, h3, (invoke_ok f.core f.scopes h1).2.2.2.2.1⟩
  · obtain ⟨b', h1, h2, h3⟩ := append_total ht h o
    exact ⟨b', h1, h2, h3, (append_ok f.core h1).2.2.2.1⟩

/-! ### Cleanup -/

theorem emitCleanup_total {R : Nat → Prop} {b : B} (c : Core b) (hs : ScopesOk b.pads b.scopes) (h : Open R b) (t : Target)
    (o : Op) : ∃ b', b.emitCleanup t o = some b' ∧ b'.terminated = b.terminated ∧ Open R b' := by
  unfold B.emitCleanup
  cases ht : b.terminated with
  | true => exact ⟨b, by simp, ht, h⟩
  | false =>
    simp only [Bool.false_eq_true, if_false]
    split
    · exact invoke_total c hs ht h t o
    · exact append_total ht h o

theorem actionTarget_open {R : Nat → Prop} {b : B} (h : Open R b) (rest : List Op) (outer : Option Nat) :
    Open R (b.actionTarget rest outer).2 := by
  unfold B.actionTarget
  split
  · split
    · exact h
    · exact h
  · exact h.add.push _ _

theorem inline_total : ∀ (acts : List Op) (outer : Option Nat) (R : Nat → Prop) (b : B), Core b → ScopesOk b.pads b.scopes →
    Open R b → ∃ b', inline acts outer b = some b' ∧ b'.terminated = b.terminated ∧ Open R b'
  | [], _, R, b, _, _, h => ⟨b, rfl, rfl, h⟩
  | a :: rest, outer, R, b, c, hs, h => by
    have hr : ∀ r : Target × B, r = (if a.fallible then b.actionTarget rest outer else (.scope, b)) →
        Core r.2 ∧ Side b r.2 ∧ Open R r.2 := by
      rintro r rfl
      split
      · obtain ⟨k1, k2, _⟩ := actionTarget_ok c rest outer
        exact ⟨k1, k2, actionTarget_open h rest outer⟩
      · exact ⟨c, Side.rfl' b, h⟩
    obtain ⟨k1, k2, k3⟩ := hr _ rfl
    have hs1 := hs.mono k2.grow.padsMono
    rw [← k2.scopes] at hs1
    obtain ⟨b1, h1, h2, h3⟩ := emitCleanup_total k1 hs1 k3 _ a
    obtain ⟨m1, m2, m3, m4, m5, m6⟩ := emitCleanup_ok k1 hs1 h1
    obtain ⟨b2, n1, n2, n3⟩ := inline_total rest outer R b1 m1 m4 h3
    refine ⟨b2, ?_, ?_, n3⟩
    · unfold inline
      have : ∀ x : Option B, x = some b1 → x.bind (inline rest outer) = some b2 := by
        rintro x rfl
        exact n1
      exact this _ h1
    · rw [n2, h2, k2.terminated c]

theorem unwind_total : ∀ (k : Nat) (scs : List Scope) (R : Nat → Prop) (b : B), Core b → ScopesOk b.pads b.scopes →
    ScopesOk b.pads scs → Open R b → ∃ q, unwind k scs b = some q ∧ Open R q.2
  | 0, scs, R, b, _, _, _, h => ⟨_, rfl, h⟩
  | k + 1, [], R, b, _, _, _, h => ⟨_, rfl, h⟩
  | k + 1, sc :: rest, R, b, c, hb, hs, h => by
    have hr : ∀ r : Option Nat × List Scope × B,
        r = (if sc.acts.reverse.any Op.fallible then padOf rest b else (none, rest, b)) →
        Core r.2.2 ∧ Side b r.2.2 ∧ ScopesOk r.2.2.pads r.2.1 ∧ Open R r.2.2 := by
      rintro r rfl
      split
      · obtain ⟨k1, k2, k3, k4, k5⟩ := padOf_ok rest b c hs.2
        exact ⟨k1, k2, k4, padOf_open rest R b h⟩
      · exact ⟨c, Side.rfl' b, hs.2, h⟩
    obtain ⟨k1, k2, k3, k4⟩ := hr _ rfl
    have hb1 := hb.mono k2.grow.padsMono
    rw [← k2.scopes] at hb1
    obtain ⟨b1, h1, h2, h3⟩ := inline_total sc.acts.reverse
      (if sc.acts.reverse.any Op.fallible then padOf rest b else (none, rest, b)).1 R _ k1 hb1 k4
    obtain ⟨m1, m2, m3, m4, m5⟩ := inline_ok _ _ _ _ k1 hb1 h1
    have hb2 := hb1.mono m2.padsMono
    rw [← m3] at hb2
    obtain ⟨q, n1, n2⟩ := unwind_total k _ R b1 m1 hb2 (k3.mono m2.padsMono) h3
    refine ⟨(sc :: q.1, q.2), ?_, n2⟩
    unfold unwind
    have : ∀ (x : Option B) (scs' : List Scope), x = some b1 → unwind k scs' b1 = some q →
        (x.bind fun b1 => (unwind k scs' b1).map fun q => (sc :: q.1, q.2)) = some (sc :: q.1, q.2) := by
      rintro x scs' rfl hq
      simp only [Option.bind_some, hq, Option.map_some]
    exact this _ _ h1 n1

theorem unwindTo_total {R : Nat → Prop} {b : B} (f : Fine b) (h : Open R b) (d : Nat) :
    ∃ b', b.unwindTo d = some b' ∧ Open R b' ∧ b'.loops = b.loops := by
  obtain ⟨q, h1, h2⟩ := unwind_total (b.scopes.length - d) b.scopes R b f.core f.scopes f.scopes h
  refine ⟨{ q.2 with scopes := q.1 }, by simp only [B.unwindTo, h1, Option.map_some], h2.cast rfl rfl rfl, ?_⟩
  exact (unwind_ok _ _ _ _ _ f.core f.scopes f.scopes h1).2.2.2.2.2.1

theorem exitScope_total {R : Nat → Prop} {b : B} (f : Fine b) (h : Open R b) (hne : b.scopes ≠ []) :
    ∃ b', b.exitScope = some b' ∧ b'.terminated = b.terminated ∧ Open R b' ∧ b'.loops = b.loops := by
  unfold B.exitScope
  cases hsc : b.scopes with
  | nil => exact absurd hsc hne
  | cons sc rest =>
    have fs := f.scopes
    rw [hsc] at fs
    have c1 : Core { b with scopes := rest } := f.core.cast rfl rfl rfl rfl rfl
    have h1 : Open R { b with scopes := rest } := h.cast rfl rfl rfl
    have hr : ∀ r : Option Nat × B,
        r = (if sc.acts.reverse.any Op.fallible then ({ b with scopes := rest } : B).innermost else (none, { b with scopes := rest })) →
        Core r.2 ∧ ScopesOk r.2.pads r.2.scopes ∧ r.2.terminated = b.terminated ∧ r.2.loops = b.loops ∧ Open R r.2 := by
      rintro r rfl
      split
      · obtain ⟨k1, k2, k3, k4, k5⟩ := padOf_ok rest { b with scopes := rest } c1 fs.2
        exact ⟨k1.cast rfl rfl rfl rfl rfl, k4, (k2.terminated (b := { b with scopes := rest }) c1 : _), k2.loops, innermost_open h1⟩
      · exact ⟨c1, fs.2, rfl, rfl, h1⟩
    obtain ⟨k1, k2, k3, k4, k5⟩ := hr _ rfl
    obtain ⟨b', m1, m2, m3⟩ := inline_total sc.acts.reverse
      (if sc.acts.reverse.any Op.fallible then ({ b with scopes := rest } : B).innermost else (none, { b with scopes := rest })).1
      R _ k1 k2 k5
    refine ⟨b', m1, m2.trans k3, m3, ?_⟩
    rw [(inline_ok _ _ _ _ k1 k2 m1).2.2.2.1, k4]

/-! ### Nodes -/

/-- The loops around are known. -/
def Known (L : List Nat) (b : B) : Prop := ∀ l ∈ L, ∃ fr, frameOf b.loops l = some fr

theorem frameOf_filter' {loops : List (Nat × Frame)} {l l' : Nat} {fr : Frame} (hne : l' ≠ l)
    (h : frameOf loops l' = some fr) : frameOf (loops.filter (fun e => e.1 != l)) l' = some fr := by
  induction loops with
  | nil => simp [frameOf] at h
  | cons e rest ih =>
    unfold frameOf at h ih ⊢
    rw [List.find?_cons] at h
    by_cases he : e.1 = l
    · rw [List.filter_cons_of_neg (by simp [he])]
      have : (e.1 == l') = false := by simp only [beq_eq_false_iff_ne]; omega
      rw [this] at h
      exact ih h
    · rw [List.filter_cons_of_pos (by simp [he]), List.find?_cons]
      split at h
      · rename_i hq
        exact h
      · rename_i hq
        exact ih h

theorem gotoUnless_total {R : Nat → Prop} {b : B} (f : Fine b) (h : Open R b) (t : Nat) :
    ∃ b', b.gotoUnless t = some b' ∧ b'.terminated = true ∧ Open R b' ∧ b'.loops = b.loops := by
  unfold B.gotoUnless
  cases ht : b.terminated with
  | true => exact ⟨b, by simp, ht, h, rfl⟩
  | false =>
    simp only [Bool.false_eq_true, if_false]
    obtain ⟨b', h1, h2, h3⟩ := terminate_total ht h (.goto t)
    exact ⟨b', h1, h2, h3, (terminate_ok f.core h1).2.2.2.1⟩

/-- What lowering a node gives. -/
def Lowered (L : List Nat) (R : Nat → Prop) (e : Bool) (r : Option B) : Prop :=
  ∃ b', r = some b' ∧ b'.terminated = e ∧ Open R b' ∧ Known L b'

mutual
theorem lower_total : ∀ (n : Node) (L : List Nat) (R : Nat → Prop) (b : B), Fine b → b.terminated = false → WF L n →
    Known L b → Open R b → Lowered L R (ends n) (lower n b)
  | .op a fl, L, R, b, f, ht, _, hk, h => by
    obtain ⟨b', h1, h2, h3, h4⟩ := insert_total f ht h (.act a fl)
    exact ⟨b', h1, h2, h3, by unfold Known; rw [h4]; exact hk⟩
  | .block xs body, L, R, b, f, ht, hw, hk, h => by
    have f1 := enterScope_fine f (xs.map .drop)
    obtain ⟨b1, h1, h2, h3, h4⟩ := lowerAll_total body L R (b.enterScope xs) f1 ht hw hk (h.cast rfl rfl rfl)
    have k1 := lowerAll_after body _ b1 f1 h1
    have hne : b1.scopes ≠ [] := by
      intro he
      have := k1.acts
      rw [he] at this
      simp [actsOf] at this
    obtain ⟨b', m1, m2, m3, m4⟩ := exitScope_total k1.fine h3 hne
    refine ⟨b', by simp only [lower, h1, Option.bind_some, m1], ?_, m3, by unfold Known; rw [m4]; exact h4⟩
    rw [m2, h2]
    simp only [ends]
  | .case n arms, L, R, b, f, ht, hw, hk, h => by
    obtain ⟨hw1, hw2, hw3⟩ := hw
    have k0 := after_addMany f (2 * arms.count + 2)
    have ht0 : (b.addMany (2 * arms.count + 2)).terminated = false := by
      rw [(addMany_side b _).terminated f.core]; exact ht
    obtain ⟨b1, h1, h2, h3, h4⟩ := lower_total n L _ _ k0.fine ht0 hw1 hk (h.addMany _)
    have k1 := lower_after n _ b1 k0.fine h1
    rw [hw2] at h2
    obtain ⟨b2, m1, m2, m3⟩ := terminate_total h2 h3 (.goto (((arms.blocks b.blocks.length).map (·.1)).headD (b.blocks.length + 2 * arms.count)))
    have k2 := term_after k1.fine m1
    have hk2 : Known L b2 := by unfold Known; rw [(terminate_ok k1.fine.core m1).2.2.2.1]; exact h4
    have hres : ArmsRes b2 arms b.blocks.length := fun j hj => k2.res (k1.res (addMany_res f.core hj))
    obtain ⟨b', n1, n2, n3, n4⟩ := lowerArms_total arms b.blocks.length L R b2 k2.fine m2 hres hw3 hk2
      (m3.mono (fun i hi => by rcases hi with hi | hi <;> [exact Or.inl (by omega); exact Or.inr hi]))
    exact ⟨b', by simp only [lower, h1, Option.bind_some, m1, n1], n2, n3, n4⟩
  | .loop l body, L, R, b, f, ht, hw, hk, h => by
    obtain ⟨hw1, hw2⟩ := hw
    have f1 := loop_start f l
    have ht1 : ({ b.addMany 2 with
        loops := (l, ⟨b.blocks.length, b.blocks.length + 1, b.scopes.length⟩) :: b.loops.filter (fun e => e.1 != l) } : B).terminated = false := by
      have := (addMany_side b 2).terminated f.core
      rw [ht] at this
      exact this
    have ho1 : Open (fun i => i = b.blocks.length ∨ (i = b.blocks.length + 1 ∨ R i)) { b.addMany 2 with
        loops := (l, ⟨b.blocks.length, b.blocks.length + 1, b.scopes.length⟩) :: b.loops.filter (fun e => e.1 != l) } :=
      ((h.addMany 2).mono (fun i hi => by
        rcases hi with hi | hi
        · by_cases he : i = b.blocks.length
          · exact Or.inl he
          · exact Or.inr (Or.inl (by omega))
        · exact Or.inr (Or.inr hi))).cast rfl rfl rfl
    obtain ⟨b2, h2, h3, h4⟩ := terminate_total ht1 ho1 (.goto b.blocks.length)
    have k2 := term_after f1 h2
    have hl2 := (terminate_ok f1.core h2).2.2.2.1
    have r0 : Res b2 b.blocks.length :=
      k2.res (Res.grow (r := b.blocks.length) (addMany_res (i := 0) f.core (n := 2) (by omega))
        ((Grow.rfl' _).cast rfl rfl rfl rfl rfl rfl rfl rfl rfl rfl))
    have r1 : Res b2 (b.blocks.length + 1) :=
      k2.res (Res.grow (addMany_res (i := 1) f.core (n := 2) (by omega))
        ((Grow.rfl' _).cast rfl rfl rfl rfl rfl rfl rfl rfl rfl rfl))
    have f2 := k2.fine.setPoint r0
    have hk2 : Known (l :: L) { b2 with point := b.blocks.length } := by
      intro l' hl'
      simp only
      rw [hl2]
      rcases List.mem_cons.1 hl' with rfl | hl'
      · exact ⟨_, frameOf_cons_self _ _ _⟩
      · have hne : l' ≠ l := fun he => hw1 (he ▸ hl')
        obtain ⟨fr, hfr⟩ := hk l' hl'
        exact ⟨fr, by rw [frameOf_cons_ne hne]; exact frameOf_filter' hne hfr⟩
    obtain ⟨b3, m1, m2, m3, m4⟩ := lower_total body (l :: L) _ _ f2 (terminated_false.2 ⟨[], r0.empty⟩) hw2 hk2 (h4.move h3)
    have k3 := lower_after body _ b3 f2 m1
    obtain ⟨b4, n1, n2, n3, n4⟩ := gotoUnless_total k3.fine m3 b.blocks.length
    have k4 := goto_after k3.fine n1
    have r2 : Res b4 (b.blocks.length + 1) := k4.res (k3.res (r1.setPoint (by omega)))
    refine ⟨{ b4 with loops := b4.loops.filter (fun e => e.1 != l), point := b.blocks.length + 1 }, ?_, ?_, ?_, ?_⟩
    · simp only [lower, h2, Option.bind_some, m1, n1, Option.map_some]
    · exact terminated_false.2 ⟨[], r2.empty⟩
    · exact (n3.move n2).cast rfl rfl rfl
    · intro l' hl'
      have hne : l' ≠ l := by rintro rfl; exact hw1 hl'
      obtain ⟨fr, hfr⟩ := m4 l' (List.mem_cons_of_mem _ hl')
      refine ⟨fr, ?_⟩
      simp only
      rw [n4]
      exact frameOf_filter' hne hfr
  | .brk l v, L, R, b, f, ht, hw, hk, h => by
    obtain ⟨fr, hfr⟩ := hk l hw.1
    obtain ⟨b1, h1, h2, h3, h4⟩ := lower_total v L R b f ht hw.2 hk h
    have k1 := lower_after v b b1 f h1
    cases ht1 : b1.terminated with
    | true => exact ⟨b1, by simp [lower, hfr, h1, ht1], ht1, h3, h4⟩
    | false =>
      obtain ⟨b2, m1, m2, m3⟩ := unwindTo_total k1.fine h3 fr.depth
      obtain ⟨k2, k3⟩ := unwindTo_ok k1.fine m1
      obtain ⟨b3, n1, n2, n3⟩ := terminate_total (k3 ht1) m2 (.goto fr.exit)
      refine ⟨b3, by simp [lower, hfr, h1, ht1, m1, n1], n2, n3, ?_⟩
      unfold Known
      rw [(terminate_ok k2.fine.core n1).2.2.2.1, m3]
      exact h4
  | .cont l, L, R, b, f, ht, hw, hk, h => by
    obtain ⟨fr, hfr⟩ := hk l hw
    obtain ⟨b2, m1, m2, m3⟩ := unwindTo_total f h fr.depth
    obtain ⟨k2, k3⟩ := unwindTo_ok f m1
    obtain ⟨b3, n1, n2, n3⟩ := terminate_total (k3 ht) m2 (.goto fr.head)
    refine ⟨b3, by simp [lower, hfr, m1, n1], n2, n3, ?_⟩
    unfold Known
    rw [(terminate_ok k2.fine.core n1).2.2.2.1, m3]
    exact hk
  | .ret v, L, R, b, f, ht, hw, hk, h => by
    obtain ⟨b1, h1, h2, h3, h4⟩ := lower_total v L R b f ht hw.1 hk h
    have k1 := lower_after v b b1 f h1
    rw [hw.2] at h2
    obtain ⟨b2, m1, m2, m3⟩ := unwindTo_total k1.fine h3 0
    obtain ⟨k2, k3⟩ := unwindTo_ok k1.fine m1
    obtain ⟨b3, n1, n2, n3⟩ := terminate_total (k3 h2) m2 .ret
    refine ⟨b3, by simp [lower, h1, m1, n1], n2, n3, ?_⟩
    unfold Known
    rw [(terminate_ok k2.fine.core n1).2.2.2.1, m3]
    exact h4
  | .scoped xs pre args p fl body, L, R, b, f, ht, hw, hk, h => by
    obtain ⟨hw1, hw2, hw3, hw4, hw5⟩ := hw
    obtain ⟨b1, h1, h2, h3, h4⟩ := lowerAll_total pre L R b f ht hw1 hk h
    have k1 := lowerAll_after pre b b1 f h1
    rw [hw2] at h2
    obtain ⟨b2, m1, m2, m3, m4⟩ := lowerEach_total args L R b1 k1.fine h2 hw3 hw4 h4 h3
    have k2 := lowerEach_after args b1 b2 k1.fine m1
    have f2 := enterScope_fine k2.fine (xs.map .drop)
    obtain ⟨b3, n1, n2, n3, n4⟩ := insert_total (b := b2.enterScope xs) f2 m2 (m3.cast rfl rfl rfl) (.enter p fl)
    have k3 := insert_ok f2 n1
    cases hsc : b3.scopes with
    | nil =>
      have := k3.acts
      rw [hsc] at this
      simp [actsOf] at this
    | cons sc rest =>
      have fs := k3.fine.scopes
      rw [hsc] at fs
      have f4 : Fine { b3 with scopes := ⟨sc.acts ++ [.slide p fl], none⟩ :: rest } := by
        refine ⟨k3.fine.core.cast rfl rfl rfl rfl rfl, ⟨fun p hp => by simp at hp, fs.2⟩, ?_⟩
        intro l fr hf
        have := k3.fine.loops l fr hf
        rw [hsc] at this
        simpa using this
      have hk4 : Known L { b3 with scopes := ⟨sc.acts ++ [.slide p fl], none⟩ :: rest } := by
        unfold Known
        simp only
        rw [n4]
        exact m4
      obtain ⟨b4, q1, q2, q3, q4⟩ := lower_total body L R _ f4 n2 hw5 hk4 (n3.cast rfl rfl rfl)
      have k4 := lower_after body _ b4 f4 q1
      have hne : b4.scopes ≠ [] := by
        intro he
        have := k4.acts
        rw [he] at this
        simp [actsOf] at this
      obtain ⟨b5, r1, r2, r3, r4⟩ := exitScope_total k4.fine q3 hne
      refine ⟨b5, ?_, ?_, r3, by unfold Known; rw [r4]; exact q4⟩
      · simp [lower, h1, h2, m1, n1, hsc, q1, r1]
      · rw [r2, q2]
        simp only [ends]

theorem lowerAll_total : ∀ (ns : Nodes) (L : List Nat) (R : Nat → Prop) (b : B), Fine b → b.terminated = false → WFAll L ns →
    Known L b → Open R b → Lowered L R (endsAll ns) (lowerAll ns b)
  | .nil, L, R, b, f, ht, _, hk, h => ⟨b, by simp only [lowerAll], ht, h, hk⟩
  | .cons n rest, L, R, b, f, ht, hw, hk, h => by
    obtain ⟨b1, h1, h2, h3, h4⟩ := lower_total n L R b f ht hw.1 hk h
    have k1 := lower_after n b b1 f h1
    cases he : ends n with
    | true =>
      rw [he] at h2
      refine ⟨b1, ?_, by rw [h2]; simp [endsAll, he], h3, h4⟩
      simp only [lowerAll, ht, Bool.false_eq_true, if_false, h1, Option.bind_some]
      cases rest with
      | nil => simp [lowerAll]
      | cons m more => simp [lowerAll, h2]
    | false =>
      rw [he] at h2
      obtain ⟨b2, m1, m2, m3, m4⟩ := lowerAll_total rest L R b1 k1.fine h2 (hw.2 he) h4 h3
      refine ⟨b2, ?_, by rw [m2]; simp [endsAll, he], m3, m4⟩
      simp only [lowerAll, ht, Bool.false_eq_true, if_false, h1, Option.bind_some, m1]

theorem lowerEach_total : ∀ (ns : Nodes) (L : List Nat) (R : Nat → Prop) (b : B), Fine b → b.terminated = false → WFAll L ns →
    endsAll ns = false → Known L b → Open R b → Lowered L R false (lowerEach ns b)
  | .nil, L, R, b, f, ht, _, _, hk, h => ⟨b, by simp only [lowerEach], ht, h, hk⟩
  | .cons n rest, L, R, b, f, ht, hw, he, hk, h => by
    simp only [endsAll, Bool.or_eq_false_iff] at he
    obtain ⟨b1, h1, h2, h3, h4⟩ := lower_total n L R b f ht hw.1 hk h
    have k1 := lower_after n b b1 f h1
    rw [he.1] at h2
    obtain ⟨b2, m1, m2, m3, m4⟩ := lowerEach_total rest L R b1 k1.fine h2 (hw.2 he.1) he.2 h4 h3
    exact ⟨b2, by simp only [lowerEach, h1, Option.bind_some, m1], m2, m3, m4⟩

theorem lowerArms_total : ∀ (arms : Arms) (i : Nat) (L : List Nat) (R : Nat → Prop) (b : B), Fine b → b.terminated = true →
    ArmsRes b arms i → WFArms L arms → Known L b →
    Open (fun j => (i ≤ j ∧ j < i + 2 * arms.count + 2) ∨ R j) b →
    Lowered L R false (lowerArms arms (arms.blocks i) (i + 2 * arms.count) (i + 2 * arms.count + 1) b)
  | .other n, i, L, R, b, f, ht, hr, hw, hk, h => by
    have r0 : Res b i := hr 0 (by simp [Arms.count])
    have r1 : Res b (i + 1) := hr 1 (by simp [Arms.count])
    have h' : Open (fun j => j = i ∨ (j = i + 1 ∨ R j)) b := h.mono (fun j hj => by
      simp only [Arms.count] at hj
      rcases hj with hj | hj
      · by_cases he : j = i
        · exact Or.inl he
        · exact Or.inr (Or.inl (by omega))
      · exact Or.inr (Or.inr hj))
    obtain ⟨b1, h1, h2, h3, h4⟩ := lower_total n L _ _ (f.setPoint r0) (terminated_false.2 ⟨[], r0.empty⟩) hw hk (h'.move ht)
    have k1 := lower_after n _ b1 (f.setPoint r0) h1
    obtain ⟨b2, m1, m2, m3, m4⟩ := gotoUnless_total k1.fine h3 (i + 1)
    have k2 := goto_after k1.fine m1
    have r2 := k2.res (k1.res (r1.setPoint (q := i) (by omega)))
    refine ⟨{ b2 with point := i + 1 }, ?_, terminated_false.2 ⟨[], r2.empty⟩, m3.move m2, ?_⟩
    · simp only [lowerArms, Arms.count, Nat.mul_zero, Nat.add_zero, h1, Option.bind_some, m1, Option.map_some]
    · unfold Known
      simp only
      rw [m4]
      exact h4
  | .alt t n rest, i, L, R, b, f, ht, hr, hw, hk, h => by
    have r0 : Res b i := hr 0 (by omega)
    have h' : Open (fun j => j = i ∨ (j = i + 1 ∨ ((i + 2 ≤ j ∧ j < i + 2 + 2 * rest.count + 2) ∨ R j))) b := h.mono (fun j hj => by
      simp only [Arms.count] at hj
      rcases hj with hj | hj
      · by_cases he : j = i
        · exact Or.inl he
        · by_cases he' : j = i + 1
          · exact Or.inr (Or.inl he')
          · exact Or.inr (Or.inr (Or.inl (by omega)))
      · exact Or.inr (Or.inr (Or.inr hj)))
    obtain ⟨b1, h1, h2, h3⟩ := terminate_total (b := { b with point := i }) (terminated_false.2 ⟨[], r0.empty⟩) (h'.move ht)
      (.branch t (i + 1) (((rest.blocks (i + 2)).map (·.1)).headD (i + 2 * (rest.count + 1))))
    have k1 := term_after (f.setPoint r0) h1
    have hres : ∀ j, 0 < j → j < 2 * (rest.count + 1) + 2 → Res b1 (i + j) := fun j h0 hj =>
      k1.res ((hr j (by simpa [Arms.count] using hj)).setPoint (by omega))
    have r1 : Res b1 (i + 1) := hres 1 (by omega) (by omega)
    have hk1 : Known L { b1 with point := i + 1 } := by
      unfold Known
      simp only
      rw [(terminate_ok (f.setPoint r0).core h1).2.2.2.1]
      exact hk
    obtain ⟨b2, m1, m2, m3, m4⟩ := lower_total n L _ _ (k1.fine.setPoint r1) (terminated_false.2 ⟨[], r1.empty⟩) hw.1 hk1 (h3.move h2)
    have k2 := lower_after n _ b2 (k1.fine.setPoint r1) m1
    obtain ⟨b3, n1, n2, n3, n4⟩ := gotoUnless_total k2.fine m3 (i + 2 * (rest.count + 1) + 1)
    have k3 := goto_after k2.fine n1
    have ee : i + 2 * (rest.count + 1) = (i + 2) + 2 * rest.count := by omega
    have hres3 : ArmsRes b3 rest (i + 2) := by
      intro j hj
      refine k3.res (k2.res (Res.setPoint ?_ (by omega)))
      have := hres (2 + j) (by omega) (by omega)
      rwa [← Nat.add_assoc] at this
    obtain ⟨b4, q1, q2, q3, q4⟩ := lowerArms_total rest (i + 2) L R b3 k3.fine n2 hres3 hw.2
      (by unfold Known; rw [n4]; exact m4) n3
    refine ⟨b4, ?_, q2, q3, q4⟩
    simp only [lowerArms, Arms.blocks, Arms.count]
    rw [h1]
    simp only [Option.bind_some, m1, n1]
    rw [ee]
    exact q1
end

/-! ### Whole functions -/

theorem emitPad_total : ∀ (acts : List Op) (R : Nat → Prop) (b : B), Core b → ScopesOk b.pads b.scopes → Open R b →
    ∃ b', emitPad acts b = some b' ∧ b'.terminated = b.terminated ∧ Open R b'
  | [], R, b, _, _, h => ⟨b, rfl, rfl, h⟩
  | a :: rest, R, b, c, hs, h => by
    obtain ⟨b1, h1, h2, h3⟩ := emitCleanup_total c hs h .poison a
    obtain ⟨k1, k2, k3, k4, k5, k6⟩ := emitCleanup_ok c hs h1
    obtain ⟨b2, m1, m2, m3⟩ := emitPad_total rest R b1 k1 k4 h3
    exact ⟨b2, by simp only [emitPad, h1, Option.bind_some, m1], m2.trans h2, m3⟩

theorem fillPads_total : ∀ (rest : List Pad) (b : B), Filling rest b → b.terminated = true →
    Open (fun i => ∃ p ∈ rest, p.block = i) b →
    ∃ b', fillPads rest b = some b' ∧ b'.terminated = true ∧ Open (fun _ => False) b' ∧ b'.pads = []
  | [], b, hf, ht, h => ⟨b, rfl, ht, h.mono (by simp), hf.pads⟩
  | p :: rest, b, hf, ht, h => by
    have hb := hf.res p (List.mem_cons_self ..)
    have c0 : Core { b with point := p.block } :=
      ⟨lt_of_get hb, by simp [hf.pads], by simp [hf.pads], hf.core.prop, hf.core.poison⟩
    have hs0 : ScopesOk ({ b with point := p.block } : B).pads ({ b with point := p.block } : B).scopes := by
      simp [hf.scopes, ScopesOk]
    have h' : Open (fun i => i = p.block ∨ ∃ q ∈ rest, q.block = i) b := h.mono (by
      rintro i ⟨q, hq, rfl⟩
      rcases List.mem_cons.1 hq with rfl | hq
      · exact Or.inl rfl
      · exact Or.inr ⟨q, hq, rfl⟩)
    obtain ⟨b1, h1, h2, h3⟩ := emitPad_total p.acts _ _ c0 hs0 (h'.move ht)
    have ht0 : ({ b with point := p.block } : B).terminated = false := terminated_false.2 ⟨[], hb⟩
    obtain ⟨k1, k2, k3, k4, k5⟩ := emitPad_ok _ _ _ c0 hs0 h1
    have hfill : ∃ b2, fillPad p b = some b2 ∧ b2.terminated = true ∧ Open (fun i => ∃ q ∈ rest, q.block = i) b2 := by
      simp only [fillPad, h1, Option.bind_some]
      cases p.outer with
      | some o => exact terminate_total (h2.trans ht0) h3 _
      | none => exact terminate_total (h2.trans ht0) h3 _
    obtain ⟨b2, m1, m2, m3⟩ := hfill
    obtain ⟨n1, n2⟩ := fillPad_ok hf m1
    obtain ⟨b3, q1, q2, q3, q4⟩ := fillPads_total rest b2 n1 m2 m3
    exact ⟨b3, by simp only [fillPads, m1, Option.bind_some, q1], q2, q3, q4⟩

/-- Well-formed bodies are compiled. -/
theorem compile_total {n : Node} (hw : WF [] n) : ∃ bs, compile n = some bs := by
  have ho : Open (fun _ => False) B.start := by
    intro i blk hi _
    have := lt_of_get hi
    simp only [B.start, List.length_singleton] at this
    exact Or.inl (by simp only [B.start]; omega)
  obtain ⟨b, h1, h2, h3, _⟩ := lower_total n [] _ B.start start_fine rfl hw (by intro l hl; cases hl) ho
  have k1 := lower_after n _ b start_fine h1
  have hend : ∃ b1, b.endBody = some b1 ∧ b1.terminated = true ∧ Open (fun _ => False) b1 := by
    unfold B.endBody
    cases ht : b.terminated with
    | true => exact ⟨b, by simp, ht, h3⟩
    | false =>
      simp only [Bool.false_eq_true, if_false]
      exact terminate_total ht h3 .ret
  obtain ⟨b1, m1, m2, m3⟩ := hend
  have k2 := endBody_after k1.fine m1
  have hsc : b1.scopes = [] := by
    have : actsOf b1.scopes = actsOf B.start.scopes := by rw [k2.acts, k1.acts]
    simpa [actsOf, B.start] using this
  have hf : Filling b1.pads { b1 with pads := [] } :=
    ⟨⟨k2.fine.core.point, by simp, by simp, k2.fine.core.prop, k2.fine.core.poison⟩, rfl, hsc,
      fun p hp => (k2.fine.core.pads p hp).1, fun p hp => (k2.fine.core.pads p hp).2, k2.fine.core.nodup⟩
  have hop : Open (fun i => ∃ p ∈ b1.pads, p.block = i) { b1 with pads := [] } := by
    intro i blk hi hn
    rcases m3 i blk hi hn with h | h | h
    · exact Or.inl h
    · exact h.elim
    · exact Or.inr (Or.inl h)
  obtain ⟨b2, n1, n2, n3, n4⟩ := fillPads_total _ _ hf m2 hop
  refine ⟨b2.blocks, ?_⟩
  simp only [compile, h1, Option.bind_some, m1, n1]
  rw [if_pos]
  rw [List.all_eq_true]
  intro blk hblk
  obtain ⟨i, hi⟩ := List.getElem?_of_mem hblk
  by_contra hn
  have hn' : blk.term = none := by simpa using hn
  rcases n3 i blk hi hn' with h | h | ⟨p, h, _⟩
  · subst h
    unfold B.terminated at n2
    rw [hi] at n2
    simp [hn'] at n2
  · exact h
  · rw [n4] at h; cases h

end Ferlium.Cleanup
