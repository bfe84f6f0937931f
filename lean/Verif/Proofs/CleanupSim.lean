import Verif.Proofs.Cleanup

/-!
The blocks built for a node do what the node means: simulation of the reference by the lowered code.
-/
namespace Ferlium.Cleanup

variable {σ : Type}

theorem steps_add (W : World σ) (bs : List Block) : ∀ (m n : Nat) (c c1 : Conf σ), steps W bs m c = some c1 →
    steps W bs (m + n) c = steps W bs n c1
  | 0, n, c, c1, h => by
    simp only [steps, Option.some.injEq] at h
    subst h
    rw [Nat.zero_add]
  | m + 1, n, c, c1, h => by
    rw [Nat.succ_add]
    simp only [steps] at h ⊢
    cases hs : stepOf W bs c with
    | none => rw [hs] at h; cases h
    | some c2 =>
      rw [hs] at h
      exact steps_add W bs m n c2 c1 h

/-- Some number of steps. -/
def Goes (W : World σ) (bs : List Block) (c c' : Conf σ) : Prop := ∃ j, steps W bs j c = some c'

theorem Goes.rfl' {W : World σ} {bs : List Block} (c : Conf σ) : Goes W bs c c := ⟨0, rfl⟩

theorem Goes.trans {W : World σ} {bs : List Block} {a b c : Conf σ} (h : Goes W bs a b) (k : Goes W bs b c) :
    Goes W bs a c := by
  obtain ⟨m, h⟩ := h
  obtain ⟨n, k⟩ := k
  exact ⟨m + n, by rw [steps_add W bs m n a b h]; exact k⟩

theorem Goes.one {W : World σ} {bs : List Block} {a b : Conf σ} (h : stepOf W bs a = some b) : Goes W bs a b :=
  ⟨1, by simp [steps, h]⟩

/-! ### Leaving scopes -/

/-- Leaves scopes, innermost first. -/
def leaveAll (W : World σ) (A : List (List Op)) (r : Out × σ) : Out × σ := A.foldl (fun r a => leave W a r) r

theorem leaveAll_cons (W : World σ) (a : List Op) (A : List (List Op)) (r : Out × σ) :
    leaveAll W (a :: A) r = leaveAll W A (leave W a r) := rfl

theorem leaveAll_append (W : World σ) (A A' : List (List Op)) (r : Out × σ) :
    leaveAll W (A ++ A') r = leaveAll W A' (leaveAll W A r) := by
  simp [leaveAll, List.foldl_append]

theorem close_out (W : World σ) : ∀ (acts : List Op) (o : Out) (s : σ),
    (close W acts o s).1 = o ∨ (close W acts o s).1 = .fail ∨ (close W acts o s).1 = .poison
  | [], o, s => Or.inl rfl
  | a :: rest, o, s => by
    unfold close
    split
    · exact close_out W rest o _
    · split
      · exact Or.inr (Or.inr rfl)
      · rcases close_out W rest .fail (W.go a s).1 with h | h | h
        · exact Or.inr (Or.inl h)
        · exact Or.inr (Or.inl h)
        · exact Or.inr (Or.inr h)

theorem close_append (W : World σ) : ∀ (a a' : List Op) (o : Out) (s : σ), o ≠ .poison →
    close W (a ++ a') o s =
      if (close W a o s).1 = .poison then close W a o s else close W a' (close W a o s).1 (close W a o s).2
  | [], a', o, s, ho => by simp [close, ho]
  | x :: a, a', o, s, ho => by
    simp only [List.cons_append, close]
    split
    · exact close_append W a a' o _ ho
    · split
      · rfl
      · exact close_append W a a' .fail _ (by simp)

theorem leave_poison (W : World σ) (a : List Op) (s : σ) : leave W a (.poison, s) = (.poison, s) := by
  simp [leave]

theorem leaveAll_poison (W : World σ) : ∀ (A : List (List Op)) (s : σ), leaveAll W A (.poison, s) = (.poison, s)
  | [], _ => rfl
  | a :: A, s => by rw [leaveAll_cons, leave_poison]; exact leaveAll_poison W A s

theorem leave_nil (W : World σ) (r : Out × σ) : leave W [] r = r := by
  unfold leave
  split
  · rfl
  · rfl

theorem leave_append (W : World σ) (a a' : List Op) (r : Out × σ) : leave W (a ++ a') r = leave W a (leave W a' r) := by
  by_cases hp : r.1 = .poison
  · simp [leave, hp]
  · rw [leave, if_neg hp, List.reverse_append, close_append W _ _ _ _ hp]
    have : leave W a' r = close W a'.reverse r.1 r.2 := by rw [leave, if_neg hp]
    rw [this, leave]

theorem leave_out (W : World σ) (a : List Op) (r : Out × σ) :
    (leave W a r).1 = r.1 ∨ (leave W a r).1 = .fail ∨ (leave W a r).1 = .poison := by
  unfold leave
  split
  · exact Or.inl rfl
  · exact close_out W _ _ _

theorem leaveAll_out (W : World σ) : ∀ (A : List (List Op)) (r : Out × σ),
    (leaveAll W A r).1 = r.1 ∨ (leaveAll W A r).1 = .fail ∨ (leaveAll W A r).1 = .poison
  | [], r => Or.inl rfl
  | a :: A, r => by
    rw [leaveAll_cons]
    rcases leaveAll_out W A (leave W a r) with h | h | h
    · rw [h]; exact leave_out W a r
    · exact Or.inr (Or.inl h)
    · exact Or.inr (Or.inr h)

/-! ### The final blocks -/

/-- A filled pad: it runs its actions and goes outwards, or poisons. -/
def PadDone (W : World σ) (bs : List Block) (p : Pad) : Prop :=
  ∀ s, Goes W bs (startOf bs p.block s)
    (if (close W p.acts .fail s).1 = .fail then
      match p.outer with
      | some o => startOf bs o (close W p.acts .fail s).2
      | none => .fin .fail (close W p.acts .fail s).2
    else .fin .poison (close W p.acts .fail s).2)

/-- The final blocks contain those of the builder, and its pads are filled. -/
structure Ext (W : World σ) (bs : List Block) (b : B) : Prop where
  blocks : ∀ (i : Nat) (blk : Block), b.blocks[i]? = some blk →
    ∃ blk', bs[i]? = some blk' ∧ blk.ops <+: blk'.ops ∧ (∀ t, blk.term = some t → blk' = blk)
  prop : ∀ p, b.prop = some p → bs[p]? = some ⟨[], some .propagate⟩
  poison : ∀ p, b.poison = some p → bs[p]? = some ⟨[], some .poison⟩
  pads : ∀ p ∈ b.pads, PadDone W bs p

theorem Ext.back {W : World σ} {bs : List Block} {b b' : B} (e : Ext W bs b') (h : Pre b b')
    (hp : ∀ p ∈ b.pads, p ∈ b'.pads) : Ext W bs b := by
  refine ⟨?_, fun p h1 => e.prop p (h.prop p h1), fun p h1 => e.poison p (h.poison p h1), fun p h1 => e.pads p (hp p h1)⟩
  intro i blk hi
  obtain ⟨b1, h1, h2, h3⟩ := h.blocks i blk hi
  obtain ⟨b2, k1, k2, k3⟩ := e.blocks i b1 h1
  refine ⟨b2, k1, h2.trans k2, fun t ht => ?_⟩
  have := h3 t ht
  subst this
  exact k3 t ht

theorem Ext.grow {W : World σ} {bs : List Block} {b b' : B} (e : Ext W bs b') (g : Grow b b') : Ext W bs b :=
  e.back g.pre g.padsMono

/-- Only blocks, pads and the shared blocks matter. -/
theorem Ext.cast {W : World σ} {bs : List Block} {b b' : B} (e : Ext W bs b) (h1 : b'.blocks = b.blocks)
    (h2 : b'.pads = b.pads) (h3 : b'.prop = b.prop) (h4 : b'.poison = b.poison) : Ext W bs b' := by
  constructor
  · rw [h1]; exact e.blocks
  · rw [h3]; exact e.prop
  · rw [h4]; exact e.poison
  · rw [h2]; exact e.pads

/-- The place in the final blocks where the builder is. -/
def here (bs : List Block) (b : B) (s : σ) : Conf σ :=
  match bs[b.point]?, b.blocks[b.point]? with
  | some blk, some cur => .at (blk.ops.drop cur.ops.length) blk.term s
  | _, _ => .at [] none s

theorem here_start {bs : List Block} {b : B} {W : World σ} (e : Ext W bs b) {r : Nat}
    (h : b.blocks[r]? = some ⟨[], none⟩) (s : σ) : here bs { b with point := r } s = startOf bs r s := by
  obtain ⟨blk, h1, _⟩ := e.blocks r _ h
  simp [here, startOf, h, h1]

theorem here_start' {bs : List Block} {b : B} {W : World σ} (e : Ext W bs b)
    (h : b.blocks[b.point]? = some ⟨[], none⟩) (s : σ) : here bs b s = startOf bs b.point s := by
  obtain ⟨blk, h1, _⟩ := e.blocks _ _ h
  simp [here, startOf, h, h1]

theorem here_same {bs : List Block} {b b' : B} (hp : b'.point = b.point)
    (h : b'.blocks[b.point]? = b.blocks[b.point]?) (s : σ) : here bs b' s = here bs b s := by
  simp only [here, hp, h]

theorem append_sim {W : World σ} {bs : List Block} {b b' : B} {o : Op} (h : b.append o = some b') (e : Ext W bs b') (s : σ) :
    Goes W bs (here bs b s) (here bs b' (W.go o s).1) := by
  obtain ⟨ops, hb, rfl⟩ := append_inv h
  have hg : (b.blocks.set b.point ⟨ops ++ [o], none⟩)[b.point]? = some ⟨ops ++ [o], none⟩ :=
    List.getElem?_set_self (lt_of_get hb)
  obtain ⟨blk, h1, ⟨more, h2⟩, _⟩ := e.blocks _ _ hg
  apply Goes.one
  simp only [here, hb, hg, h1]
  simp only at h2
  rw [← h2]
  simp [stepOf]

theorem terminate_here {W : World σ} {bs : List Block} {b b' : B} {t : Term} (h : b.terminate t = some b')
    (e : Ext W bs b') (s : σ) : here bs b s = .at [] (some t) s := by
  obtain ⟨ops, hb, rfl⟩ := terminate_inv h
  have hg : (b.blocks.set b.point ⟨ops, some t⟩)[b.point]? = some ⟨ops, some t⟩ :=
    List.getElem?_set_self (lt_of_get hb)
  obtain ⟨blk, h1, _, h3⟩ := e.blocks _ _ hg
  have := h3 t rfl
  subst this
  simp [here, hb, h1]

/-- What happens from the first pad of a chain; without pad there is nothing to do. -/
def ChainTo (W : World σ) (bs : List Block) (A : List (List Op)) (s : σ) : Option Nat → Prop
  | some e => Goes W bs (startOf bs e s) (.fin (leaveAll W A (.fail, s)).1 (leaveAll W A (.fail, s)).2)
  | none => leaveAll W A (.fail, s) = (.fail, s)

/-- A chain of pads cleans up the scopes it is for. -/
theorem chain_sim {W : World σ} {bs : List Block} {P : List Pad} (hP : ∀ p ∈ P, PadDone W bs p) {A : List (List Op)}
    {o : Option Nat} (c : Chain P A o) : ∀ s : σ, ChainTo W bs A s o := by
  induction c with
  | nil => exact fun _ => rfl
  | @skip rest o _ ih =>
    intro s
    have h := ih s
    cases o with
    | some e => simp only [ChainTo, leaveAll_cons, leave_nil] at h ⊢; exact h
    | none => simp only [ChainTo, leaveAll_cons, leave_nil] at h ⊢; exact h
  | @pad a rest o p hm _ ih =>
    intro s
    unfold ChainTo
    have h := hP _ hm s
    simp only at h
    have hl : leave W a (.fail, s) = close W a.reverse .fail s := by simp [leave]
    rw [leaveAll_cons, hl]
    rcases close_out W a.reverse .fail s with hc | hc | hc
    · rw [if_pos hc] at h
      have he : close W a.reverse .fail s = (.fail, (close W a.reverse .fail s).2) := Prod.ext hc rfl
      rw [he]
      have := ih (close W a.reverse .fail s).2
      cases o with
      | some e => exact h.trans this
      | none => simp only [ChainTo] at this; rw [this]; exact h
    · rw [if_pos hc] at h
      have he : close W a.reverse .fail s = (.fail, (close W a.reverse .fail s).2) := Prod.ext hc rfl
      rw [he]
      have := ih (close W a.reverse .fail s).2
      cases o with
      | some e => exact h.trans this
      | none => simp only [ChainTo] at this; rw [this]; exact h
    · have hn : (close W a.reverse .fail s).1 ≠ .fail := by rw [hc]; simp
      rw [if_neg hn] at h
      have he : close W a.reverse .fail s = (.poison, (close W a.reverse .fail s).2) := Prod.ext hc rfl
      rw [he, leaveAll_poison]
      exact h

/-- What happens from the error successor of an operation. -/
def ErrTo (W : World σ) (bs : List Block) (A : List (List Op)) (x : Nat) (s : σ) : Target → Prop
  | .scope => Goes W bs (startOf bs x s) (.fin (leaveAll W A (.fail, s)).1 (leaveAll W A (.fail, s)).2)
  | .pad p => x = p
  | .propagate => Goes W bs (startOf bs x s) (.fin .fail s)
  | .poison => Goes W bs (startOf bs x s) (.fin .poison s)

theorem err_sim {W : World σ} {bs : List Block} {b : B} (e : Ext W bs b) {A : List (List Op)} {t : Target} {x : Nat}
    (h : ErrOk b A t x) (s : σ) : ErrTo W bs A x s t := by
  cases t with
  | scope =>
    rcases h with h | ⟨h, hp⟩
    · exact chain_sim e.pads h s
    · have := chain_sim e.pads h s
      simp only [ChainTo, ErrTo] at this ⊢
      rw [this]
      apply Goes.one
      simp [startOf, e.prop _ hp, stepOf]
  | pad p => exact h
  | propagate =>
    apply Goes.one
    simp [startOf, e.prop _ h, stepOf]
  | poison =>
    apply Goes.one
    simp [startOf, e.poison _ h, stepOf]

/-- An invoked operation goes on where the builder is, or to the error successor. -/
theorem invoke_sim {W : World σ} {bs : List Block} {b b' : B} (c : Core b) (hs : ScopesOk b.pads b.scopes) {t : Target}
    {o : Op} (h : b.invoke t o = some b') (e : Ext W bs b') (s : σ) :
    ((W.go o s).2 = true → Goes W bs (here bs b s) (here bs b' (W.go o s).1)) ∧
    ((W.go o s).2 = false → ∃ x, ErrOk b' (actsOf b.scopes) t x ∧ Goes W bs (here bs b s) (startOf bs x (W.go o s).1)) := by
  obtain ⟨h1, h2, h3, h4, h5, h6, ops, x, h7, h8, h9⟩ := invoke_ok c hs h
  have hh : here bs b s = .at [] (some (.invoke o b'.point x)) s := by
    obtain ⟨blk, k1, _, k3⟩ := e.blocks _ _ h8
    have := k3 _ rfl
    subst this
    simp [here, h7, k1]
  have hg : W.go o s = ((W.go o s).1, (W.go o s).2) := rfl
  constructor
  · intro hok
    rw [hh, here_start' e h6]
    apply Goes.one
    simp only [stepOf]
    rw [hg, hok]
  · intro hok
    refine ⟨x, h9, ?_⟩
    rw [hh]
    apply Goes.one
    simp only [stepOf]
    rw [hg, hok]

/-! ### Cleanup -/

theorem go_infallible {W : World σ} {o : Op} (h : o.fallible = false) (s : σ) : (W.go o s).2 = true := by
  simp [World.go, h]

/-- The actions of a pad. -/
theorem emitPad_ok : ∀ (acts : List Op) (b b' : B), Core b → ScopesOk b.pads b.scopes →
    emitPad acts b = some b' → Core b' ∧ Grow b b' ∧ actsOf b'.scopes = actsOf b.scopes ∧
      ScopesOk b'.pads b'.scopes ∧ (b.terminated = false → b'.terminated = false)
  | [], b, b', c, hs, h => by
    simp only [emitPad, Option.some.injEq] at h
    subst h
    exact ⟨c, Grow.rfl' b, rfl, hs, fun h => h⟩
  | a :: rest, b, b', c, hs, h => by
    simp only [emitPad, Option.bind_eq_some_iff] at h
    obtain ⟨b1, h1, h2⟩ := h
    obtain ⟨k1, k2, k3, k4, k5, k6⟩ := emitCleanup_ok c hs h1
    obtain ⟨m1, m2, m3, m4, m5⟩ := emitPad_ok rest b1 b' k1 k4 h2
    exact ⟨m1, k2.trans m2, m3.trans k3, m4, fun h => m5 (k6 h)⟩

theorem emitPad_sim (W : World σ) (bs : List Block) : ∀ (acts : List Op) (b b' : B), Core b → ScopesOk b.pads b.scopes →
    b.terminated = false → emitPad acts b = some b' → Ext W bs b' → ∀ s : σ,
    Goes W bs (here bs b s)
      (if (close W acts .fail s).1 = .fail then here bs b' (close W acts .fail s).2
       else .fin .poison (close W acts .fail s).2)
  | [], b, b', c, hs, ht, h, e, s => by
    simp only [emitPad, Option.some.injEq] at h
    subst h
    simp only [close, if_true]
    exact Goes.rfl' _
  | a :: rest, b, b', c, hs, ht, h, e, s => by
    simp only [emitPad, Option.bind_eq_some_iff] at h
    obtain ⟨b1, h1, h2⟩ := h
    obtain ⟨k1, k2, k3, k4, k5, k6⟩ := emitCleanup_ok c hs h1
    obtain ⟨m1, m2, m3, m4, m5⟩ := emitPad_ok rest b1 b' k1 k4 h2
    have e1 := e.grow m2
    have ih := emitPad_sim W bs rest b1 b' k1 k4 (k6 ht) h2 e
    unfold B.emitCleanup at h1
    rw [ht] at h1
    simp only [Bool.false_eq_true, if_false] at h1
    split at h1
    · obtain ⟨n1, n2⟩ := invoke_sim c hs h1 e1 s
      unfold close
      cases hg : (W.go a s).2 with
      | true =>
        simp only [if_true]
        exact (n1 hg).trans (ih _)
      | false =>
        obtain ⟨x, hx, hgo⟩ := n2 hg
        have := err_sim e1 hx (W.go a s).1
        simp only [ErrTo] at this
        simp only [Bool.false_eq_true, if_false, if_true]
        exact hgo.trans this
    · rename_i hf
      have hf : a.fallible = false := by simpa using hf
      have hg := go_infallible (W := W) hf s
      unfold close
      rw [hg]
      simp only [if_true]
      exact (append_sim h1 e1 s).trans (ih _)

/-- A filled pad does what it should. -/
theorem fillPad_sim {W : World σ} {bs : List Block} {p : Pad} {b b' : B} (c : Core b) (hs : ScopesOk b.pads b.scopes)
    (hr : Res b p.block) (h : fillPad p b = some b') (e : Ext W bs b') : PadDone W bs p := by
  simp only [fillPad, Option.bind_eq_some_iff] at h
  obtain ⟨b1, h1, h2⟩ := h
  have c0 := c.setPoint hr
  have ht : ({ b with point := p.block } : B).terminated = false := terminated_false.2 ⟨[], hr.empty⟩
  obtain ⟨k1, k2, k3, k4, k5⟩ := emitPad_ok _ _ _ c0 hs h1
  have hfin : ∃ t, b1.terminate t = some b' ∧ t = (match p.outer with | some o => .goto o | none => .propagate) := by
    cases hp : p.outer with
    | some o => rw [hp] at h2; exact ⟨_, h2, rfl⟩
    | none => rw [hp] at h2; exact ⟨_, h2, rfl⟩
  obtain ⟨t, h3, ht'⟩ := hfin
  obtain ⟨m1, m2, _⟩ := terminate_ok k1 h3
  have e1 := e.grow m2
  have e0 := e1.grow k2
  intro s
  have hsim := emitPad_sim W bs _ _ _ c0 hs ht h1 e1 s
  rw [here_start (b := b) (W := W) (e0.cast rfl rfl rfl rfl) hr.empty] at hsim
  refine hsim.trans ?_
  split
  · rw [terminate_here h3 e, ht']
    cases p.outer with
    | some o => exact Goes.one rfl
    | none => exact Goes.one rfl
  · exact Goes.rfl' _

/-- Inline cleanup: it completes where the builder is, or it fails and the scopes around are left too. -/
theorem inline_sim (W : World σ) (bs : List Block) (A : List (List Op)) : ∀ (acts : List Op) (outer : Option Nat) (b b' : B),
    Core b → ScopesOk b.pads b.scopes → b.terminated = false →
    (acts.any Op.fallible = true → Chain b.pads A outer) → inline acts outer b = some b' → Ext W bs b' →
    ∀ (o : Out) (s : σ), o ≠ .fail → o ≠ .poison →
    ((close W acts o s).1 = o → Goes W bs (here bs b s) (here bs b' (close W acts o s).2)) ∧
    ((close W acts o s).1 ≠ o → Goes W bs (here bs b s)
      (.fin (leaveAll W A (close W acts o s)).1 (leaveAll W A (close W acts o s)).2))
  | [], outer, b, b', c, hs, ht, hc, h, e, o, s, ho, ho' => by
    simp only [inline, Option.some.injEq] at h
    subst h
    exact ⟨fun _ => Goes.rfl' _, fun h => absurd rfl h⟩
  | a :: rest, outer, b, b', c, hs, ht, hc, h, e, o, s, ho, ho' => by
    simp only [inline, Option.bind_eq_some_iff] at h
    obtain ⟨b1, h1, h2⟩ := h
    by_cases hf : a.fallible = true
    · rw [if_pos hf] at h1
      obtain ⟨k1, k2, k3⟩ := actionTarget_ok c rest outer
      have hs1 := hs.mono k2.grow.padsMono
      rw [← k2.scopes] at hs1
      obtain ⟨m1, m2, m3, m4, m5, m6⟩ := emitCleanup_ok k1 hs1 h1
      have ht1 : (b.actionTarget rest outer).2.terminated = false := by rw [k2.terminated c]; exact ht
      have hch : Chain b.pads A outer := hc (by simp [hf])
      have hch1 := hch.mono (k2.grow.trans m2).padsMono
      obtain ⟨n1, n2, n3, n4, n5⟩ := inline_ok rest outer b1 b' m1 m4 h2
      have e1 := e.grow n2
      have ih := inline_sim W bs A rest outer b1 b' m1 m4 (m6 ht1) (fun _ => hch1) h2 e
      unfold B.emitCleanup at h1
      rw [ht1, if_pos hf] at h1
      simp only [Bool.false_eq_true, if_false] at h1
      obtain ⟨q1, q2⟩ := invoke_sim k1 hs1 h1 e1 s
      have hh : here bs (b.actionTarget rest outer).2 s = here bs b s :=
        here_same k2.point (k2.same _ c.point) s
      rw [hh] at q1 q2
      have hchs := chain_sim e1.pads hch1
      unfold close
      cases hg : (W.go a s).2 with
      | true =>
        simp only [if_true]
        obtain ⟨i1, i2⟩ := ih o (W.go a s).1 ho ho'
        exact ⟨fun h => (q1 hg).trans (i1 h), fun h => (q1 hg).trans (i2 h)⟩
      | false =>
        simp only [Bool.false_eq_true, if_false, if_neg ho]
        obtain ⟨x, hx, hgo⟩ := q2 hg
        have hne : (close W rest .fail (W.go a s).1).1 ≠ o := by
          rcases close_out W rest .fail (W.go a s).1 with h | h | h <;> rw [h] <;> first | exact Ne.symm ho | exact Ne.symm ho'
        refine ⟨fun h => absurd h hne, fun _ => hgo.trans ?_⟩
        have herr := err_sim e1 hx (W.go a s).1
        cases hrest : rest with
        | nil =>
          rw [hrest] at herr
          simp only [B.actionTarget] at herr
          simp only [close]
          have hq := hchs (W.go a s).1
          cases houter : outer with
          | some p =>
            simp only [houter, ErrTo, ChainTo] at herr hq
            rw [herr]
            exact hq
          | none =>
            simp only [houter, ErrTo, ChainTo] at herr hq
            rw [hq]
            exact herr
        | cons y ys =>
          rw [hrest] at herr
          simp only [B.actionTarget] at herr
          have hpad : (⟨b.blocks.length, y :: ys, outer⟩ : Pad) ∈ b1.pads := by
            apply m2.padsMono
            simp [B.actionTarget, hrest]
          have hp := e1.pads _ hpad (W.go a s).1
          simp only at hp
          simp only [ErrTo] at herr
          rw [herr]
          rcases close_out W (y :: ys) .fail (W.go a s).1 with hc | hc | hc
          · rw [if_pos hc] at hp
            have he : close W (y :: ys) .fail (W.go a s).1 = (.fail, (close W (y :: ys) .fail (W.go a s).1).2) := Prod.ext hc rfl
            rw [he]
            have hq := hchs (close W (y :: ys) .fail (W.go a s).1).2
            cases houter : outer with
            | some e => rw [houter] at hp hq; exact hp.trans hq
            | none => rw [houter] at hp hq; simp only [ChainTo] at hq; rw [hq]; exact hp
          · rw [if_pos hc] at hp
            have he : close W (y :: ys) .fail (W.go a s).1 = (.fail, (close W (y :: ys) .fail (W.go a s).1).2) := Prod.ext hc rfl
            rw [he]
            have hq := hchs (close W (y :: ys) .fail (W.go a s).1).2
            cases houter : outer with
            | some e => rw [houter] at hp hq; exact hp.trans hq
            | none => rw [houter] at hp hq; simp only [ChainTo] at hq; rw [hq]; exact hp
          · have hn : (close W (y :: ys) .fail (W.go a s).1).1 ≠ .fail := by rw [hc]; simp
            rw [if_neg hn] at hp
            have he : close W (y :: ys) .fail (W.go a s).1 = (.poison, (close W (y :: ys) .fail (W.go a s).1).2) := Prod.ext hc rfl
            rw [he, leaveAll_poison]
            exact hp
    · have hf' : a.fallible = false := by simpa using hf
      rw [if_neg hf] at h1
      obtain ⟨m1, m2, m3, m4, m5, m6⟩ := emitCleanup_ok c hs h1
      obtain ⟨n1, n2, n3, n4, n5⟩ := inline_ok rest outer b1 b' m1 m4 h2
      have e1 := e.grow n2
      have ih := inline_sim W bs A rest outer b1 b' m1 m4 (m6 ht)
        (fun hr => (hc (by simp [hr])).mono m2.padsMono) h2 e
      unfold B.emitCleanup at h1
      rw [ht, if_neg hf] at h1
      simp only [Bool.false_eq_true, if_false] at h1
      have q := append_sim h1 e1 s
      have hg := go_infallible (W := W) hf' s
      unfold close
      rw [hg]
      simp only [if_true]
      obtain ⟨i1, i2⟩ := ih o (W.go a s).1 ho ho'
      exact ⟨fun h => q.trans (i1 h), fun h => q.trans (i2 h)⟩

end Ferlium.Cleanup
