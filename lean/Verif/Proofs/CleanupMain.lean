import Verif.Proofs.CleanupNode

/-!
The simulation of each node, and of whole functions with their pads.
-/
namespace Ferlium.Cleanup

variable {σ : Type}

theorem Jumps.goal {W : World σ} {bs : List Block} {loops : List (Nat × Frame)} {A : List (List Op)} {b' : B} {k : Nat}
    {c c' : Conf σ} {r : Option (Out × σ)} (g : Jumps W bs c c') (h : Goal W bs loops A b' k c' r) :
    Goal W bs loops A b' (k + 1) c r := by
  match r, h with
  | none, h => exact g.far h
  | some (.done, s), h => exact ⟨h.1, g.goes.trans h.2⟩
  | some (.brk l, s), h => exact Goal.exit (g.goes.exit (Goal.toExit (by simp) h))
  | some (.cont l, s), h => exact Goal.exit (g.goes.exit (Goal.toExit (by simp) h))
  | some (.ret, s), h => exact Goal.exit (g.goes.exit (Goal.toExit (by simp) h))
  | some (.fail, s), h => exact Goal.exit (g.goes.exit (Goal.toExit (by simp) h))
  | some (.poison, s), h => exact Goal.exit (g.goes.exit (Goal.toExit (by simp) h))

/-- Something after a node, with the loops and scopes of before. -/
theorem Goal.then {W : World σ} {bs : List Block} {loops : List (Nat × Frame)} {A : List (List Op)} {b1 b' : B} {k : Nat}
    {c : Conf σ} {r : Option (Out × σ)} {next : σ → Option (Out × σ)}
    (h1 : Goal W bs loops A b1 k c r)
    (h2 : ∀ s, b1.terminated = false → Goal W bs loops A b' k (here bs b1 s) (next s)) :
    Goal W bs loops A b' k c (andThen r next) := by
  match r, h1 with
  | none, h => exact h
  | some (.done, s), h => exact h.2.goal (h2 s h.1)
  | some (.brk l, s), h => exact h
  | some (.cont l, s), h => exact h
  | some (.ret, s), h => exact h
  | some (.fail, s), h => exact h
  | some (.poison, s), h => exact h

/-- The same before a scope is entered whose cleanup is empty, or when what comes before always completes. -/
theorem Goal.calm {W : World σ} {bs : List Block} {loops : List (Nat × Frame)} {A : List (List Op)} {b1 b' : B} {k : Nat}
    {c : Conf σ} {X : List Op} {r : Option (Out × σ)} {next : σ → Option (Out × σ)}
    (h1 : Goal W bs loops A b1 k c r) (hx : X = [] ∨ ∀ o s, r = some (o, s) → o = .done)
    (h2 : ∀ s, b1.terminated = false → Goal W bs loops A b' k (here bs b1 s) ((next s).map (leave W X))) :
    Goal W bs loops A b' k c (Option.map (leave W X) (andThen r next)) := by
  have hid : X = [] → ∀ q : Option (Out × σ), q.map (leave W X) = q := by
    rintro rfl q
    cases q with
    | none => rfl
    | some q => simp [leave_nil]
  match r, h1, hx with
  | none, h, _ => exact h
  | some (.done, s), h, _ => exact h.2.goal (h2 s h.1)
  | some (.brk l, s), h, hx =>
    rcases hx with hx | hx
    · rw [hid hx]; exact h
    · cases hx _ _ rfl
  | some (.cont l, s), h, hx =>
    rcases hx with hx | hx
    · rw [hid hx]; exact h
    · cases hx _ _ rfl
  | some (.ret, s), h, hx =>
    rcases hx with hx | hx
    · rw [hid hx]; exact h
    · cases hx _ _ rfl
  | some (.fail, s), h, hx =>
    rcases hx with hx | hx
    · rw [hid hx]; exact h
    · cases hx _ _ rfl
  | some (.poison, s), h, hx =>
    rcases hx with hx | hx
    · rw [hid hx]; exact h
    · cases hx _ _ rfl

/-- An operation goes on where the builder is, or fails out of all scopes. -/
theorem insert_sim {W : World σ} {bs : List Block} {b b' : B} (f : Fine b) (ht : b.terminated = false) {o : Op}
    (h : b.insert o = some b') (e : Ext W bs b') (loops : List (Nat × Frame)) (k : Nat) (s : σ) :
    Goal W bs loops (actsOf b.scopes) b' k (here bs b s)
      (some (if (W.go o s).2 then .done else .fail, (W.go o s).1)) := by
  unfold B.insert at h
  split at h
  · obtain ⟨n1, n2⟩ := invoke_sim f.core f.scopes h e s
    cases hg : (W.go o s).2 with
    | true =>
      obtain ⟨_, _, _, _, _, h6, _⟩ := invoke_ok f.core f.scopes h
      exact ⟨terminated_false.2 ⟨[], h6⟩, n1 hg⟩
    | false =>
      obtain ⟨x, hx, hgo⟩ := n2 hg
      have := err_sim e hx (W.go o s).1
      simp only [ErrTo] at this
      exact Goal.exit (Exit.fin' (Or.inl rfl) (hgo.trans this))
  · rename_i hf
    have hf : o.fallible = false := by simpa using hf
    rw [go_infallible (W := W) hf s]
    refine ⟨?_, append_sim h e s⟩
    obtain ⟨ops, hb, rfl⟩ := append_inv h
    exact terminated_false.2 ⟨ops ++ [o], by simp only; rw [List.getElem?_set_self (lt_of_get hb)]⟩

/-- Leaving scopes and jumping. -/
theorem jump_sim {W : World σ} {bs : List Block} {b b1 b' : B} (f : Fine b) (ht : b.terminated = false) {d x : Nat}
    (h : b.unwindTo d = some b1) (h1 : b1.terminate (.goto x) = some b') (e : Ext W bs b') {o : Out} (ho : o ≠ .fail)
    (ho' : o ≠ .poison) (s : σ) : JumpTo W bs (actsOf b.scopes) d x o s (here bs b s) := by
  have k1 := (unwindTo_ok f h).1
  have e1 := e.grow (term_after k1.fine h1).grow
  simp only [B.unwindTo, Option.map_eq_some_iff] at h
  obtain ⟨⟨scs, b2⟩, h2, rfl⟩ := h
  obtain ⟨q1, q2⟩ := unwind_sim W bs _ _ _ _ _ f.core f.scopes f.scopes ht h2 (e1.cast rfl rfl rfl rfl) o s ho ho'
  unfold JumpTo
  rw [actsOf_length]
  refine ⟨fun hc => (q1 hc).jumps ?_, q2⟩
  have hh : here bs b2 (leaveAll W (List.take (b.scopes.length - d) (actsOf b.scopes)) (o, s)).2 =
    here bs { b2 with scopes := scs } (leaveAll W (List.take (b.scopes.length - d) (actsOf b.scopes)) (o, s)).2 := rfl
  rw [hh, terminate_here h1 e]
  exact Jumps.one rfl

/-- Leaving all scopes and returning. -/
theorem ret_sim {W : World σ} {bs : List Block} {b b1 b' : B} (f : Fine b) (ht : b.terminated = false)
    (h : b.unwindTo 0 = some b1) (h1 : b1.terminate .ret = some b') (e : Ext W bs b') (loops : List (Nat × Frame)) (s : σ) :
    Exit W bs loops (actsOf b.scopes) (here bs b s) (.ret, s) := by
  have k1 := (unwindTo_ok f h).1
  have e1 := e.grow (term_after k1.fine h1).grow
  simp only [B.unwindTo, Option.map_eq_some_iff] at h
  obtain ⟨⟨scs, b2⟩, h2, rfl⟩ := h
  obtain ⟨q1, q2⟩ := unwind_sim W bs _ _ _ _ _ f.core f.scopes f.scopes ht h2 (e1.cast rfl rfl rfl rfl) .ret s (by simp)
    (by simp)
  have hl : List.take (b.scopes.length - 0) (actsOf b.scopes) = actsOf b.scopes := by
    rw [Nat.sub_zero, ← actsOf_length, List.take_length]
  rw [hl] at q1 q2
  simp only [Exit]
  by_cases hc : (leaveAll W (actsOf b.scopes) (.ret, s)).1 = .ret
  · refine (q1 hc).trans ?_
    have hh : here bs b2 (leaveAll W (actsOf b.scopes) (.ret, s)).2 =
      here bs { b2 with scopes := scs } (leaveAll W (actsOf b.scopes) (.ret, s)).2 := rfl
    rw [hh, terminate_here h1 e, hc]
    exact Goes.one rfl
  · exact q2 hc

theorem Pre.cast {a a' b b' : B} (h : Pre a b) (h1 : a'.blocks = a.blocks) (h2 : a'.prop = a.prop)
    (h3 : a'.poison = a.poison) (k1 : b'.blocks = b.blocks) (k2 : b'.prop = b.prop) (k3 : b'.poison = b.poison) : Pre a' b' := by
  constructor
  · rw [h1, k1]; exact h.blocks
  · rw [h2, k2]; exact h.prop
  · rw [h3, k3]; exact h.poison

/-- After the alternatives the builder is at the tail, which is empty, and nothing of before is lost. -/
theorem lowerArms_end : ∀ (arms : Arms) (i : Nat) (b b' : B), Fine b → ArmsRes b arms i →
    lowerArms arms (arms.blocks i) (i + 2 * arms.count) (i + 2 * arms.count + 1) b = some b' →
    Pre b b' ∧ (∀ p ∈ b.pads, p ∈ b'.pads) ∧ b'.point = i + 2 * arms.count + 1 ∧
      b'.blocks[i + 2 * arms.count + 1]? = some ⟨[], none⟩
  | .other n, i, b, b', f, hr, h => by
    simp only [lowerArms, Arms.count, Option.bind_eq_some_iff, Option.map_eq_some_iff, Nat.mul_zero, Nat.add_zero] at h
    obtain ⟨b1, h1, b2, h2, rfl⟩ := h
    have r0 : Res b i := hr 0 (by simp [Arms.count])
    have r1 : Res b (i + 1) := hr 1 (by simp [Arms.count])
    have k1 := lower_after n _ b1 (f.setPoint r0) h1
    have k2 := goto_after k1.fine h2
    have r2 := k2.res (k1.res (r1.setPoint (q := i) (by omega)))
    have g := (k1.trans k2).grow
    exact ⟨g.pre.cast rfl rfl rfl rfl rfl rfl, g.padsMono, by simp [Arms.count], by simpa [Arms.count] using r2.empty⟩
  | .alt t n rest, i, b, b', f, hr, h => by
    simp only [lowerArms, Arms.blocks, Arms.count, Option.bind_eq_some_iff] at h
    obtain ⟨b1, h1, b2, h2, b3, h3, h4⟩ := h
    have r0 : Res b i := hr 0 (by omega)
    have k1 := term_after (f.setPoint r0) h1
    have hres : ∀ j, 0 < j → j < 2 * (rest.count + 1) + 2 → Res b1 (i + j) := fun j h0 hj =>
      k1.res ((hr j (by simpa [Arms.count] using hj)).setPoint (by omega))
    have r1 : Res b1 (i + 1) := hres 1 (by omega) (by omega)
    have k2 := lower_after n _ b2 (k1.fine.setPoint r1) h2
    have k3 := goto_after k2.fine h3
    have e : i + 2 * (rest.count + 1) = (i + 2) + 2 * rest.count := by omega
    rw [e] at h4
    obtain ⟨m1, m2, m3, m4⟩ := lowerArms_end rest (i + 2) b3 b' k3.fine (by
      intro j hj
      refine k3.res (k2.res (Res.setPoint ?_ (by omega)))
      have := hres (2 + j) (by omega) (by omega)
      rwa [← Nat.add_assoc] at this) h4
    have g1 := k1.grow
    have g2 := (k2.trans k3).grow
    refine ⟨?_, fun p hp => m2 p (g2.padsMono p (g1.padsMono p hp)), ?_, ?_⟩
    · exact (g1.pre.cast rfl rfl rfl rfl rfl rfl : Pre b b1).trans
        ((g2.pre.cast rfl rfl rfl rfl rfl rfl : Pre b1 b3).trans m1)
    · simp only [Arms.count]; rw [e]; exact m3
    · simp only [Arms.count]; rw [e]; exact m4

/-- The end of an alternative: it jumps to the tail. -/
theorem Goal.tail {W : World σ} {bs : List Block} {loops : List (Nat × Frame)} {A : List (List Op)} {b1 b2 b' : B} {k : Nat}
    {c : Conf σ} {r : Option (Out × σ)} {t : Nat} (h : b1.gotoUnless t = some b2) (e2 : Ext W bs b2) (e : Ext W bs b')
    (hp : b'.point = t) (hb : b'.blocks[t]? = some ⟨[], none⟩)
    (hg : Goal W bs loops A b1 k c r) : Goal W bs loops A b' k c r := by
  match r, hg with
  | none, h => exact h
  | some (.done, s), hg =>
    subst hp
    refine ⟨terminated_false.2 ⟨[], hb⟩, hg.2.trans ?_⟩
    unfold B.gotoUnless at h
    rw [hg.1] at h
    simp only [Bool.false_eq_true, if_false] at h
    rw [terminate_here h e2, here_start' e hb]
    exact Goes.one rfl
  | some (.brk l, s), h => exact h
  | some (.cont l, s), h => exact h
  | some (.ret, s), h => exact h
  | some (.fail, s), h => exact h
  | some (.poison, s), h => exact h

/-- Leaving a scope only adds. -/
theorem exitScope_grow {b b' : B} (f : Fine b) (h : b.exitScope = some b') : Grow b b' := by
  unfold B.exitScope at h
  split at h
  · cases h
  · rename_i sc rest hsc
    have fs := f.scopes
    rw [hsc] at fs
    have c1 : Core { b with scopes := rest } := f.core.cast rfl rfl rfl rfl rfl
    have hr : ∀ r : Option Nat × B,
        r = (if sc.acts.reverse.any Op.fallible then ({ b with scopes := rest } : B).innermost else (none, { b with scopes := rest })) →
        Core r.2 ∧ Grow b r.2 ∧ ScopesOk r.2.pads r.2.scopes := by
      rintro r rfl
      split
      · obtain ⟨k1, k2, k3, k4, k5⟩ := padOf_ok rest { b with scopes := rest } c1 fs.2
        exact ⟨k1.cast rfl rfl rfl rfl rfl, k2.grow.cast rfl rfl rfl rfl rfl rfl rfl rfl rfl rfl, k4⟩
      · exact ⟨c1, (Grow.rfl' b).cast rfl rfl rfl rfl rfl rfl rfl rfl rfl rfl, fs.2⟩
    obtain ⟨k1, k2, k3⟩ := hr _ rfl
    exact k2.trans (inline_ok _ _ _ _ k1 k3 h).2.1

theorem addMany_side (b : B) (n : Nat) : Side b (b.addMany n) := more_side b _

theorem frameOf_cons_self (l : Nat) (fr : Frame) (loops : List (Nat × Frame)) : frameOf ((l, fr) :: loops) l = some fr := by
  simp [frameOf]

theorem frameOf_cons_ne {l l' : Nat} (h : l' ≠ l) (fr : Frame) (loops : List (Nat × Frame)) :
    frameOf ((l, fr) :: loops) l' = frameOf loops l' := by
  simp [frameOf, Ne.symm h]

/-- The iterations of a loop. -/
theorem iterate_sim {W : World σ} {bs : List Block} {b bb b3 b4 b' : B} {l i k : Nat} {body : σ → Option (Out × σ)}
    (hA : actsOf bb.scopes = actsOf b.scopes)
    (hl : frameOf bb.loops l = some ⟨i, i + 1, b.scopes.length⟩)
    (hl' : ∀ l' fr, l' ≠ l → frameOf bb.loops l' = some fr → frameOf b.loops l' = some fr)
    (h4 : b3.gotoUnless i = some b4) (e4 : Ext W bs b4) (e : Ext W bs b') (hp : b'.point = i + 1)
    (hb : b'.blocks[i + 1]? = some ⟨[], none⟩)
    (hbody : ∀ s, Goal W bs bb.loops (actsOf bb.scopes) b3 k (startOf bs i s) (body s)) :
    ∀ m, m ≤ k → ∀ s, Goal W bs b.loops (actsOf b.scopes) b' m (startOf bs i s) (iterate l body m s)
  | 0, _, s => Far.zero _
  | m + 1, hm, s => by
    have hz : (actsOf b.scopes).take ((actsOf b.scopes).length - b.scopes.length) = [] := by
      rw [actsOf_length, Nat.sub_self, List.take_zero]
    have h := hbody s
    rw [hA] at h
    simp only [iterate]
    have ih := iterate_sim hA hl hl' h4 e4 e hp hb hbody m (by omega)
    match hr : body s, h with
    | none, h => exact Far.mono h hm
    | some (.done, s1), h =>
      refine Jumps.goal (h.2.jumps ?_) (ih s1)
      unfold B.gotoUnless at h4
      rw [h.1] at h4
      simp only [Bool.false_eq_true, if_false] at h4
      rw [terminate_here h4 e4]
      exact Jumps.one rfl
    | some (.cont l', s1), h =>
      have h := Goal.toExit (by simp) h
      simp only [Exit] at h
      obtain ⟨fr, h1, h2⟩ := h
      simp only
      split
      · rename_i he
        subst he
        rw [hl, Option.some.injEq] at h1
        subst h1
        have := h2.1
        simp only [hz] at this
        exact Jumps.goal (this rfl) (ih s1)
      · rename_i hne
        refine Goal.exit ?_
        simp only [Exit]
        exact ⟨fr, hl' l' fr hne h1, h2⟩
    | some (.brk l', s1), h =>
      have h := Goal.toExit (by simp) h
      simp only [Exit] at h
      obtain ⟨fr, h1, h2⟩ := h
      simp only
      split
      · rename_i he
        subst he
        rw [hl, Option.some.injEq] at h1
        subst h1
        have := h2.1
        simp only [hz] at this
        have hj := (this rfl).goes
        refine ⟨terminated_false.2 ⟨[], by rw [hp]; exact hb⟩, ?_⟩
        rw [here_start' e (by rw [hp]; exact hb), hp]
        exact hj
      · rename_i hne
        refine Goal.exit ?_
        simp only [Exit]
        exact ⟨fr, hl' l' fr hne h1, h2⟩
    | some (.ret, s1), h => exact h
    | some (.fail, s1), h => exact h
    | some (.poison, s1), h => exact h

mutual
theorem lower_sim (W : World σ) (bs : List Block) (k : Nat) : ∀ (n : Node) (b b' : B), Fine b → b.terminated = false →
    Calm W n → lower n b = some b' → Ext W bs b' →
    ∀ s, Goal W bs b.loops (actsOf b.scopes) b' k (here bs b s) (sem W k n s)
  | .op a fl, b, b', f, ht, _, h, e, s => by
    simp only [sem]
    exact insert_sim f ht h e _ k s
  | .block xs body, b, b', f, ht, hc, h, e, s => by
    simp only [lower, Option.bind_eq_some_iff] at h
    obtain ⟨b1, h1, h2⟩ := h
    have f1 := enterScope_fine f (xs.map .drop)
    have k1 := lowerAll_after body _ b1 f1 h1
    have e1 : Ext W bs b1 := by
      have := exitScope_grow k1.fine h2
      exact e.grow this
    have ih := lowerAll_sim W bs k body _ b1 f1 ht hc h1 e1 s
    simp only [sem]
    exact Goal.scope k1.fine k1.acts (fun l fr hf => by simpa using f.loops l fr hf) h2 e ih
  | .case n arms, b, b', f, ht, hc, h, e, s => by
    simp only [lower, Option.bind_eq_some_iff] at h
    obtain ⟨b1, h1, b2, h2, h3⟩ := h
    have k0 := after_addMany f (2 * arms.count + 2)
    have k1 := lower_after n _ b1 k0.fine h1
    have k2 := term_after k1.fine h2
    have hres : ArmsRes b2 arms b.blocks.length := fun j hj => k2.res (k1.res (addMany_res f.core hj))
    obtain ⟨m1, m2, m3, m4⟩ := lowerArms_end arms _ b2 b' k2.fine hres h3
    have e2 := e.back m1 m2
    have e1 := e2.grow k2.grow
    have ht0 : (b.addMany (2 * arms.count + 2)).terminated = false := by
      rw [(addMany_side b _).terminated f.core]
      exact ht
    have hh : here bs (b.addMany (2 * arms.count + 2)) s = here bs b s :=
      here_same (b := b) (b' := b.addMany (2 * arms.count + 2)) rfl ((addMany_side b _).same _ f.core.point) s
    have ih := lower_sim W bs k n _ b1 k0.fine ht0 hc.1 h1 e1 s
    rw [hh] at ih
    simp only [sem]
    refine Goal.then ih ?_
    intro s1 _
    rw [terminate_here h2 e2]
    refine Goes.goal (Goes.one rfl) ?_
    have := lowerArms_sim W bs k arms b.blocks.length b2 b' k2.fine hres hc.2 h3 e s1
    have ha : actsOf b2.scopes = actsOf b.scopes := by rw [k2.acts, k1.acts]; rfl
    rw [ha] at this
    exact this.loops (fun l fr hf => k1.loops l fr (k2.loops l fr hf))
  | .loop l body, b, b', f, ht, hc, h, e, s => by
    simp only [lower, Option.bind_eq_some_iff, Option.map_eq_some_iff] at h
    obtain ⟨b2, h2, b3, h3, b4, h4, rfl⟩ := h
    have f1 := loop_start f l
    have k2 := term_after f1 h2
    have r0 : Res b2 b.blocks.length :=
      k2.res (Res.grow (r := b.blocks.length) (addMany_res (i := 0) f.core (n := 2) (by omega))
        ((Grow.rfl' _).cast rfl rfl rfl rfl rfl rfl rfl rfl rfl rfl))
    have r1 : Res b2 (b.blocks.length + 1) :=
      k2.res (Res.grow (addMany_res (i := 1) f.core (n := 2) (by omega))
        ((Grow.rfl' _).cast rfl rfl rfl rfl rfl rfl rfl rfl rfl rfl))
    have f2 := k2.fine.setPoint r0
    have k3 := lower_after body _ b3 f2 h3
    have k4 := goto_after k3.fine h4
    have r2 : Res b4 (b.blocks.length + 1) := k4.res (k3.res (r1.setPoint (by omega)))
    have e4 : Ext W bs b4 := e.cast rfl rfl rfl rfl
    have e3 := e4.grow k4.grow
    have e2 : Ext W bs b2 := (e3.grow k3.grow).cast rfl rfl rfl rfl
    have hlp : b2.loops = (l, ⟨b.blocks.length, b.blocks.length + 1, b.scopes.length⟩) :: b.loops.filter (fun e => e.1 != l) := by
      obtain ⟨_, _, rfl⟩ := terminate_inv h2
      rfl
    have hh : here bs { b.addMany 2 with loops := (l, ⟨b.blocks.length, b.blocks.length + 1, b.scopes.length⟩) :: b.loops.filter (fun e => e.1 != l) } s = here bs b s :=
      here_same (b := b) (b' := { b.addMany 2 with loops := (l, ⟨b.blocks.length, b.blocks.length + 1, b.scopes.length⟩) :: b.loops.filter (fun e => e.1 != l) }) rfl ((addMany_side b 2).same _ f.core.point) s
    have hbody : ∀ s, Goal W bs b2.loops (actsOf b2.scopes) b3 k (startOf bs b.blocks.length s) (sem W k body s) := by
      intro s
      have := lower_sim W bs k body { b2 with point := b.blocks.length } b3 f2 (terminated_false.2 ⟨[], r0.empty⟩) hc h3 e3 s
      rw [here_start e2 r0.empty] at this
      exact this
    have hit := iterate_sim (b := b) (b' := { b4 with loops := b4.loops.filter (fun e => e.1 != l), point := b.blocks.length + 1 })
      k2.acts (by rw [hlp]; exact frameOf_cons_self _ _ _)
      (fun l' fr hne hf => by rw [hlp, frameOf_cons_ne hne] at hf; exact (frameOf_filter hf).2) h4 e4 e rfl r2.empty hbody
      k (le_refl _) s
    simp only [sem]
    rw [← hh, terminate_here h2 e2]
    exact Goes.goal (Goes.one rfl) hit
  | .brk l v, b, b', f, ht, hc, h, e, s => by
    simp only [lower, Option.bind_eq_some_iff] at h
    obtain ⟨fr, hfr, b1, h1, h2⟩ := h
    have k1 := lower_after v b b1 f h1
    simp only [sem]
    by_cases ht1 : b1.terminated = true
    · rw [if_pos ht1, Option.some.injEq] at h2
      subst h2
      exact Goal.then (lower_sim W bs k v b b1 f ht hc h1 e s) (fun s1 hf => by rw [ht1] at hf; cases hf)
    · rw [if_neg ht1] at h2
      simp only [Option.bind_eq_some_iff] at h2
      obtain ⟨b2, h2, h3⟩ := h2
      have k2 := (unwindTo_ok k1.fine h2).1
      have e1 := e.grow (k2.trans (term_after k2.fine h3)).grow
      refine Goal.then (lower_sim W bs k v b b1 f ht hc h1 e1 s) (fun s1 hf => Goal.exit ?_)
      have := jump_sim k1.fine hf h2 h3 e (o := .brk l) (by simp) (by simp) s1
      rw [k1.acts] at this
      simp only [Exit]
      exact ⟨fr, hfr, this⟩
  | .cont l, b, b', f, ht, _, h, e, s => by
    simp only [lower, Option.bind_eq_some_iff] at h
    obtain ⟨fr, hfr, b1, h1, h2⟩ := h
    simp only [sem]
    refine Goal.exit ?_
    simp only [Exit]
    exact ⟨fr, hfr, jump_sim f ht h1 h2 e (o := .cont l) (by simp) (by simp) s⟩
  | .ret v, b, b', f, ht, hc, h, e, s => by
    simp only [lower, Option.bind_eq_some_iff] at h
    obtain ⟨b1, h1, b2, h2, h3⟩ := h
    have k1 := lower_after v b b1 f h1
    have k2 := (unwindTo_ok k1.fine h2).1
    have e1 := e.grow (k2.trans (term_after k2.fine h3)).grow
    simp only [sem]
    refine Goal.then (lower_sim W bs k v b b1 f ht hc h1 e1 s) (fun s1 hf => Goal.exit ?_)
    have := ret_sim k1.fine hf h2 h3 e b.loops s1
    rw [k1.acts] at this
    exact this
  | .scoped xs pre args p fl body, b, b', f, ht, hc, h, e, s => by
    simp only [lower, Option.bind_eq_some_iff] at h
    obtain ⟨b1, h1, h⟩ := h
    obtain ⟨hc1, hc2, hc3, hc4⟩ := hc
    have hc4' : xs.map Op.drop = [] ∨ Steady W pre ∧ Steady W args := by
      rcases hc4 with h | h
      · exact Or.inl (by rw [h]; rfl)
      · exact Or.inr h
    have k1 := lowerAll_after pre b b1 f h1
    simp only [sem]
    by_cases ht1 : b1.terminated = true
    · rw [if_pos ht1] at h
      simp only [Option.bind_eq_some_iff] at h
      obtain ⟨b2, h2, h3⟩ := h
      have k2 := lower_after body _ b2 (enterScope_fine k1.fine []) h2
      have e2 := e.grow (exitScope_grow k2.fine h3)
      have e1 : Ext W bs b1 := (e2.grow k2.grow).cast rfl rfl rfl rfl
      exact Goal.calm (lowerAll_sim W bs k pre b b1 f ht hc1 h1 e1 s) (hc4'.imp id (fun hs o s' hr => hs.1 k s o s' hr))
        (fun s1 hf => by rw [ht1] at hf; cases hf)
    · rw [if_neg ht1] at h
      simp only [Option.bind_eq_some_iff] at h
      obtain ⟨b2, h2, b3, h3, h⟩ := h
      have k2 := lowerEach_after args b1 b2 k1.fine h2
      have f2 := enterScope_fine k2.fine (xs.map .drop)
      have k3 := insert_ok f2 h3
      split at h
      · cases h
      · rename_i sc rest hsc
        simp only [Option.bind_eq_some_iff] at h
        obtain ⟨b4, h4, h5⟩ := h
        have ha := k3.acts
        rw [hsc] at ha
        simp only [actsOf, List.map_cons, List.cons.injEq] at ha
        have fs := k3.fine.scopes
        rw [hsc] at fs
        have f4 : Fine { b3 with scopes := ⟨sc.acts ++ [.slide p fl], none⟩ :: rest } := by
          refine ⟨k3.fine.core.cast rfl rfl rfl rfl rfl, ⟨fun p hp => by simp at hp, fs.2⟩, ?_⟩
          intro l fr hf
          have := k3.fine.loops l fr hf
          rw [hsc] at this
          simpa using this
        have k4 := lower_after body _ b4 f4 h4
        have e4 := e.grow (exitScope_grow k4.fine h5)
        have e3 : Ext W bs b3 := (e4.grow k4.grow).cast rfl rfl rfl rfl
        have e2 : Ext W bs b2 := (e3.grow k3.grow).cast rfl rfl rfl rfl
        have e1 := e2.grow k2.grow
        have hA2 : actsOf b2.scopes = actsOf b.scopes := by rw [k2.acts, k1.acts]
        have hdep : ∀ l fr, frameOf b.loops l = some fr → fr.depth ≤ (actsOf b.scopes).length := fun l fr hf => by
          rw [actsOf_length]; exact f.loops l fr hf
        refine Goal.calm (lowerAll_sim W bs k pre b b1 f ht hc1 h1 e1 s) (hc4'.imp id (fun hs o s' hr => hs.1 k s o s' hr)) ?_
        intro s1 hf1
        have g2 := lowerEach_sim W bs k args b1 b2 k1.fine hf1 hc2 h2 e2 s1
        rw [k1.acts] at g2
        refine Goal.calm (g2.loops k1.loops) (hc4'.imp id (fun hs o s' hr => hs.2 k s1 o s' hr)) ?_
        intro s2 hf2
        have g3 := insert_sim f2 hf2 h3 e3 b.loops k s2
        have hA3 : actsOf (({ b2 with scopes := ⟨xs.map .drop, none⟩ :: b2.scopes } : B)).scopes =
            xs.map .drop :: actsOf b.scopes := by rw [← hA2]; rfl
        rw [hA3] at g3
        have hh : here bs ({ b2 with scopes := ⟨xs.map .drop, none⟩ :: b2.scopes } : B) s2 = here bs b2 s2 := rfl
        rw [hh] at g3
        cases hg : (W.go (.enter p fl) s2).2 with
        | false =>
          rw [hg] at g3
          simp only [Bool.false_eq_true, if_false, Option.map_some] at g3 ⊢
          exact Goal.exit (Exit.leave hdep (Goal.toExit (by simp) g3))
        | true =>
          rw [hg] at g3
          simp only [if_true] at g3 ⊢
          refine g3.2.goal ?_
          have g4 := lower_sim W bs k body _ b4 f4 g3.1 hc3 h4 e4 (W.go (.enter p fl) s2).1
          have hacts : actsOf (({ b3 with scopes := ⟨sc.acts ++ [.slide p fl], none⟩ :: rest } : B)).scopes =
              (xs.map .drop ++ [.slide p fl]) :: actsOf b.scopes := by
            simp only [actsOf, List.map_cons]
            rw [ha.1, ha.2]
            exact congrArg _ hA2
          rw [hacts] at g4
          have g5 := Goal.scope k4.fine (by rw [k4.acts]; exact hacts) hdep h5 e (g4.loops (loops' := b.loops)
            (fun l fr hf => k1.loops l fr (k2.loops l fr (k3.loops l fr hf))))
          have hm : ∀ q : Option (Out × σ), q.map (leave W (xs.map .drop ++ [.slide p fl])) =
              (q.map (leave W [.slide p fl])).map (leave W (xs.map .drop)) := by
            intro q
            cases q with
            | none => rfl
            | some q => simp [leave_append]
          rw [hm] at g5
          exact g5

theorem lowerAll_sim (W : World σ) (bs : List Block) (k : Nat) : ∀ (ns : Nodes) (b b' : B), Fine b → b.terminated = false →
    CalmAll W ns → lowerAll ns b = some b' → Ext W bs b' →
    ∀ s, Goal W bs b.loops (actsOf b.scopes) b' k (here bs b s) (semAll W k ns s)
  | .nil, b, b', f, ht, _, h, e, s => by
    simp only [lowerAll, Option.some.injEq] at h
    subst h
    exact ⟨ht, Goes.rfl' _⟩
  | .cons n rest, b, b', f, ht, hc, h, e, s => by
    simp only [lowerAll, ht, Bool.false_eq_true, if_false, Option.bind_eq_some_iff] at h
    obtain ⟨b1, h1, h2⟩ := h
    have k1 := lower_after n b b1 f h1
    have e1 := e.grow (lowerAll_after rest b1 b' k1.fine h2).grow
    simp only [semAll]
    exact Goal.seq k1 (lower_sim W bs k n b b1 f ht hc.1 h1 e1 s)
      (fun s1 hf => lowerAll_sim W bs k rest b1 b' k1.fine hf hc.2 h2 e s1)

theorem lowerEach_sim (W : World σ) (bs : List Block) (k : Nat) : ∀ (ns : Nodes) (b b' : B), Fine b → b.terminated = false →
    CalmAll W ns → lowerEach ns b = some b' → Ext W bs b' →
    ∀ s, Goal W bs b.loops (actsOf b.scopes) b' k (here bs b s) (semAll W k ns s)
  | .nil, b, b', f, ht, _, h, e, s => by
    simp only [lowerEach, Option.some.injEq] at h
    subst h
    exact ⟨ht, Goes.rfl' _⟩
  | .cons n rest, b, b', f, ht, hc, h, e, s => by
    simp only [lowerEach, Option.bind_eq_some_iff] at h
    obtain ⟨b1, h1, h2⟩ := h
    have k1 := lower_after n b b1 f h1
    have e1 := e.grow (lowerEach_after rest b1 b' k1.fine h2).grow
    simp only [semAll]
    exact Goal.seq k1 (lower_sim W bs k n b b1 f ht hc.1 h1 e1 s)
      (fun s1 hf => lowerEach_sim W bs k rest b1 b' k1.fine hf hc.2 h2 e s1)

theorem lowerArms_sim (W : World σ) (bs : List Block) (k : Nat) : ∀ (arms : Arms) (i : Nat) (b b' : B), Fine b →
    ArmsRes b arms i → CalmArms W arms →
    lowerArms arms (arms.blocks i) (i + 2 * arms.count) (i + 2 * arms.count + 1) b = some b' → Ext W bs b' →
    ∀ s, Goal W bs b.loops (actsOf b.scopes) b' k
      (startOf bs (((arms.blocks i).map (·.1)).headD (i + 2 * arms.count)) s) (semArms W k arms s)
  | .other n, i, b, b', f, hr, hc, h, e, s => by
    obtain ⟨m1, m2, m3, m4⟩ := lowerArms_end (.other n) i b b' f hr h
    simp only [lowerArms, Arms.count, Option.bind_eq_some_iff, Option.map_eq_some_iff, Nat.mul_zero, Nat.add_zero] at h
    obtain ⟨b1, h1, b2, h2, hb'⟩ := h
    have r0 : Res b i := hr 0 (by simp [Arms.count])
    have k1 := lower_after n _ b1 (f.setPoint r0) h1
    have k2 := goto_after k1.fine h2
    have e2 : Ext W bs b2 := by subst hb'; exact e.cast rfl rfl rfl rfl
    have e1 := e2.grow k2.grow
    have e0 := e.back m1 m2
    have ih := lower_sim W bs k n _ b1 (f.setPoint r0) (terminated_false.2 ⟨[], r0.empty⟩) hc h1 e1 s
    rw [here_start e0 r0.empty] at ih
    simp only [semArms, Arms.blocks, Arms.count, List.map_nil, List.headD_nil, Nat.mul_zero, Nat.add_zero]
    exact Goal.tail (t := i + 1) h2 e2 e (by simpa [Arms.count] using m3) (by simpa [Arms.count] using m4) ih
  | .alt t n rest, i, b, b', f, hr, hc, h, e, s => by
    obtain ⟨q1, q2, q3, q4⟩ := lowerArms_end (.alt t n rest) i b b' f hr h
    simp only [lowerArms, Arms.blocks, Arms.count, Option.bind_eq_some_iff] at h
    obtain ⟨b1, h1, b2, h2, b3, h3, h4⟩ := h
    have r0 : Res b i := hr 0 (by omega)
    have k1 := term_after (f.setPoint r0) h1
    have hres : ∀ j, 0 < j → j < 2 * (rest.count + 1) + 2 → Res b1 (i + j) := fun j h0 hj =>
      k1.res ((hr j (by simpa [Arms.count] using hj)).setPoint (by omega))
    have r1 : Res b1 (i + 1) := hres 1 (by omega) (by omega)
    have k2 := lower_after n _ b2 (k1.fine.setPoint r1) h2
    have k3 := goto_after k2.fine h3
    have ee : i + 2 * (rest.count + 1) = (i + 2) + 2 * rest.count := by omega
    rw [ee] at h4
    have hres3 : ArmsRes b3 rest (i + 2) := by
      intro j hj
      refine k3.res (k2.res (Res.setPoint ?_ (by omega)))
      have := hres (2 + j) (by omega) (by omega)
      rwa [← Nat.add_assoc] at this
    obtain ⟨m1, m2, m3, m4⟩ := lowerArms_end rest (i + 2) b3 b' k3.fine hres3 h4
    have e3 := e.back m1 m2
    have e2 := e3.grow k3.grow
    have e1 : Ext W bs b1 := (e2.grow k2.grow).cast rfl rfl rfl rfl
    have e0 := e.back q1 q2
    have hh : startOf bs i s = here bs { b with point := i } s := (here_start e0 r0.empty s).symm
    simp only [semArms, Arms.blocks, Arms.count, List.map_cons, List.headD_cons]
    rw [hh, terminate_here h1 e1]
    have hacts1 : actsOf b1.scopes = actsOf b.scopes := k1.acts
    by_cases htest : W.test t s = true
    · rw [if_pos htest]
      have ih := lower_sim W bs k n _ b2 (k1.fine.setPoint r1) (terminated_false.2 ⟨[], r1.empty⟩) hc.1 h2 e2 s
      rw [here_start e1 r1.empty] at ih
      have ih' : Goal W bs b.loops (actsOf b.scopes) b2 k (startOf bs (i + 1) s) (sem W k n s) := by
        rw [← hacts1]
        exact ih.loops k1.loops
      refine Goes.goal (Goes.one ?_) (Goal.tail (t := i + 2 * (rest.count + 1) + 1) h3 e3 e q3 q4 ih')
      simp [stepOf, htest]
    · rw [if_neg htest]
      have ih := lowerArms_sim W bs k rest (i + 2) b3 b' k3.fine hres3 hc.2 h4 e s
      have hacts3 : actsOf b3.scopes = actsOf b.scopes := by rw [k3.acts, k2.acts]; exact hacts1
      rw [hacts3] at ih
      refine Goes.goal (Goes.one ?_) (ih.loops (fun l fr hf => k1.loops l fr (k2.loops l fr (k3.loops l fr hf))))
      simp [stepOf, htest, ee]
end

/-! ### Whole functions -/

theorem emitPad_pads : ∀ (acts : List Op) (b b' : B), Core b → ScopesOk b.pads b.scopes → emitPad acts b = some b' →
    b'.pads = b.pads ∧ b'.scopes = b.scopes
  | [], b, b', _, _, h => by
    simp only [emitPad, Option.some.injEq] at h
    subst h
    exact ⟨rfl, rfl⟩
  | a :: rest, b, b', c, hs, h => by
    simp only [emitPad, Option.bind_eq_some_iff] at h
    obtain ⟨b1, h1, h2⟩ := h
    obtain ⟨k1, k2, k3, k4, k5, k6⟩ := emitCleanup_ok c hs h1
    have h3 := emitCleanup_scopes (fun _ => by simp) h1
    obtain ⟨i1, i2⟩ := emitPad_pads rest b1 b' k1 k4 h2
    refine ⟨i1.trans ?_, i2.trans h3⟩
    unfold B.emitCleanup at h1
    split at h1
    · cases h1; rfl
    · split at h1
      · simp only [B.invoke, Option.map_eq_some_iff] at h1
        obtain ⟨b2, h4, rfl⟩ := h1
        obtain ⟨ops, _, rfl⟩ := terminate_inv h4
        exact (poisonBlock_ok (add_core c)).2.2.2
      · obtain ⟨ops, _, rfl⟩ := append_inv h1
        rfl

/-- What is needed while pads are filled. -/
structure Filling (rest : List Pad) (b : B) : Prop where
  core : Core b
  pads : b.pads = []
  scopes : b.scopes = []
  res : ∀ p ∈ rest, b.blocks[p.block]? = some ⟨[], none⟩
  apart : ∀ p ∈ rest, p.block ≠ b.point
  nodup : (rest.map (·.block)).Nodup

theorem fillPad_ok {p : Pad} {rest : List Pad} {b b' : B} (hf : Filling (p :: rest) b) (h : fillPad p b = some b') :
    Filling rest b' ∧ Pre b b' := by
  simp only [fillPad, Option.bind_eq_some_iff] at h
  obtain ⟨b1, h1, h2⟩ := h
  have hb := hf.res p (List.mem_cons_self ..)
  have c0 : Core { b with point := p.block } :=
    ⟨lt_of_get hb, by simp [hf.pads], by simp [hf.pads], hf.core.prop, hf.core.poison⟩
  have hs0 : ScopesOk ({ b with point := p.block } : B).pads ({ b with point := p.block } : B).scopes := by
    simp [hf.scopes, ScopesOk]
  obtain ⟨k1, k2, k3, k4, k5⟩ := emitPad_ok _ _ _ c0 hs0 h1
  obtain ⟨n1, n2⟩ := emitPad_pads _ _ _ c0 hs0 h1
  have hfin : ∃ t, b1.terminate t = some b' := by
    cases hp : p.outer with
    | some o => rw [hp] at h2; exact ⟨_, h2⟩
    | none => rw [hp] at h2; exact ⟨_, h2⟩
  obtain ⟨t, h3⟩ := hfin
  obtain ⟨m1, m2, m3, m4, m5⟩ := terminate_ok k1 h3
  have g := k2.trans m2
  have hnd := hf.nodup
  simp only [List.map_cons, List.nodup_cons] at hnd
  refine ⟨⟨m1, by rw [m5, n1]; exact hf.pads, by rw [m3, n2]; exact hf.scopes, ?_, ?_, hnd.2⟩,
    g.pre.cast rfl rfl rfl rfl rfl rfl⟩
  rotate_left
  · intro q hq
    have hne : q.block ≠ p.block := by
      intro he
      exact hnd.1 (List.mem_map.2 ⟨q, hq, he⟩)
    have := lt_of_get (hf.res q (List.mem_cons_of_mem _ hq))
    rcases g.point with hp | hp
    · rw [hp]; exact hne
    · simp only at hp; omega
  intro q hq
  have hne : q.block ≠ p.block := by
    intro he
    exact hnd.1 (List.mem_map.2 ⟨q, hq, he⟩)
  have hq' := hf.res q (List.mem_cons_of_mem _ hq)
  rw [g.keep q.block (lt_of_get hq') hne]
  exact hq'

theorem fillPads_ok (W : World σ) (bs : List Block) : ∀ (rest : List Pad) (b b' : B), Filling rest b →
    fillPads rest b = some b' → Core b' ∧ b'.pads = [] ∧ Pre b b' ∧ (Ext W bs b' → ∀ p ∈ rest, PadDone W bs p)
  | [], b, b', hf, h => by
    simp only [fillPads, Option.some.injEq] at h
    subst h
    exact ⟨hf.core, hf.pads, Pre.rfl' b, fun _ p hp => absurd hp (by simp)⟩
  | p :: rest, b, b', hf, h => by
    simp only [fillPads, Option.bind_eq_some_iff] at h
    obtain ⟨b1, h1, h2⟩ := h
    obtain ⟨k1, k2⟩ := fillPad_ok hf h1
    obtain ⟨m1, m2, m3, m4⟩ := fillPads_ok W bs rest b1 b' k1 h2
    refine ⟨m1, m2, k2.trans m3, ?_⟩
    intro e q hq
    rcases List.mem_cons.1 hq with rfl | hq
    · have e1 : Ext W bs b1 := e.back m3 (by rw [k1.pads]; simp)
      have hb := hf.res q (List.mem_cons_self ..)
      exact fillPad_sim hf.core (by rw [hf.scopes]; trivial) ⟨hb, hf.apart q (List.mem_cons_self ..), by simp [hf.pads]⟩ h1 e1
    · exact m4 e q hq

theorem start_fine : Fine B.start := by
  refine ⟨⟨by simp [B.start], by simp [B.start], by simp [B.start], by simp [B.start], by simp [B.start]⟩, trivial, ?_⟩
  intro l fr h
  simp [B.start, frameOf] at h

theorem endBody_after {b b' : B} (f : Fine b) (h : b.endBody = some b') : After b b' := by
  unfold B.endBody at h
  split at h
  · cases h; exact After.rfl' f
  · exact term_after f h

/-- How the code of a function ends when its body is left so. -/
def ending : Out → Out
  | .done => .ret
  | o => o

/-- The code of a function does what its body says, or goes on as long. -/
theorem compile_sim {W : World σ} {n : Node} {bs : List Block} (hc : Calm W n) (h : compile n = some bs) (k : Nat) (s : σ) :
    match sem W k n s with
    | none => Far W bs k (startOf bs 0 s)
    | some (o, s') => Goes W bs (startOf bs 0 s) (.fin (ending o) s') := by
  simp only [compile, Option.bind_eq_some_iff] at h
  obtain ⟨b, h1, b1, h2, b2, h3, h4⟩ := h
  split at h4
  · simp only [Option.some.injEq] at h4
    subst h4
    have k1 := lower_after n _ b start_fine h1
    have k2 := endBody_after k1.fine h2
    have hsc : b1.scopes = [] := by
      have : actsOf b1.scopes = actsOf B.start.scopes := by rw [k2.acts, k1.acts]
      simpa [actsOf, B.start] using this
    have hf : Filling b1.pads { b1 with pads := [] } :=
      ⟨⟨k2.fine.core.point, by simp, by simp, k2.fine.core.prop, k2.fine.core.poison⟩, rfl, hsc,
        fun p hp => (k2.fine.core.pads p hp).1, fun p hp => (k2.fine.core.pads p hp).2, k2.fine.core.nodup⟩
    obtain ⟨m1, m2, m3, m4⟩ := fillPads_ok W b2.blocks _ _ _ hf h3
    have e2 : Ext W b2.blocks b2 :=
      ⟨fun i blk hi => ⟨blk, hi, List.prefix_rfl, fun _ _ => rfl⟩, m1.prop, m1.poison, by rw [m2]; simp⟩
    have e1' : Ext W b2.blocks ({ b1 with pads := [] } : B) := e2.back m3 (by simp)
    have e1 : Ext W b2.blocks b1 := ⟨e1'.blocks, e1'.prop, e1'.poison, m4 e2⟩
    have e0 := e1.grow k2.grow
    have g := lower_sim W b2.blocks k n B.start b start_fine rfl hc h1 e0 s
    rw [here_start' (b := B.start) (e0.grow k1.grow) rfl] at g
    change Goal W b2.blocks [] [] b k (startOf b2.blocks 0 s) (sem W k n s) at g
    match sem W k n s, g with
    | none, g => exact g
    | some (.done, s'), g =>
      refine g.2.trans ?_
      unfold B.endBody at h2
      rw [g.1] at h2
      simp only [Bool.false_eq_true, if_false] at h2
      rw [terminate_here h2 e1]
      exact Goes.one rfl
    | some (.brk l, s'), g =>
      obtain ⟨fr, hfr, _⟩ := Goal.toExit (by simp) g
      simp [frameOf] at hfr
    | some (.cont l, s'), g =>
      obtain ⟨fr, hfr, _⟩ := Goal.toExit (by simp) g
      simp [frameOf] at hfr
    | some (.ret, s'), g => exact g
    | some (.fail, s'), g => exact g
    | some (.poison, s'), g => exact g
  · cases h4

theorem steps_fin (W : World σ) (bs : List Block) (o : Out) (s : σ) : ∀ n, steps W bs (n + 1) (.fin o s) = none := by
  intro n
  simp [steps, stepOf]

/-- Executions are unique. -/
theorem steps_unique {W : World σ} {bs : List Block} {c : Conf σ} {i j : Nat} {o o' : Out} {s s' : σ}
    (h : steps W bs i c = some (.fin o s)) (h' : steps W bs j c = some (.fin o' s')) : i = j ∧ o = o' ∧ s = s' := by
  have key : ∀ i j o o' s s', i ≤ j → steps W bs i c = some (.fin o s) → steps W bs j c = some (.fin o' s') →
      i = j ∧ o = o' ∧ s = s' := by
    intro i j o o' s s' hij h h'
    obtain ⟨d, rfl⟩ := Nat.exists_eq_add_of_le hij
    rw [steps_add W bs i d c _ h] at h'
    cases d with
    | zero =>
      simp only [steps, Option.some.injEq, Conf.fin.injEq] at h'
      exact ⟨rfl, h'⟩
    | succ d => rw [steps_fin] at h'; cases h'
  rcases Nat.le_total i j with hij | hij
  · exact key i j o o' s s' hij h h'
  · obtain ⟨h1, h2, h3⟩ := key j i o' o s' s hij h' h
    exact ⟨h1.symm, h2.symm, h3.symm⟩

theorem far_fin {W : World σ} {bs : List Block} {c : Conf σ} {j : Nat} {o : Out} {s : σ} (h : Far W bs (j + 1) c)
    (h' : steps W bs j c = some (.fin o s)) : False := by
  obtain ⟨i, c', hi, hs⟩ := h
  obtain ⟨d, rfl⟩ := Nat.exists_eq_add_of_le hi
  rw [Nat.add_assoc, steps_add W bs j (1 + d) c _ h', Nat.add_comm 1 d, steps_fin] at hs
  cases hs

/-- The code ends in just the ways the body does. -/
theorem compile_iff {W : World σ} {n : Node} {bs : List Block} (hc : Calm W n) (h : compile n = some bs) (s : σ) (o : Out)
    (s' : σ) : (∃ j, steps W bs j (startOf bs 0 s) = some (.fin o s')) ↔
      ∃ k o', sem W k n s = some (o', s') ∧ o = ending o' := by
  constructor
  · rintro ⟨j, hj⟩
    have := compile_sim hc h (j + 1) s
    split at this
    · exact (far_fin this hj).elim
    · rename_i o1 s1 hr
      obtain ⟨i, hi⟩ := this
      obtain ⟨_, h2, h3⟩ := steps_unique hj hi
      subst h2 h3
      exact ⟨j + 1, o1, hr, rfl⟩
  · rintro ⟨k, o', hk, rfl⟩
    have := compile_sim hc h k s
    rw [hk] at this
    exact this

end Ferlium.Cleanup
