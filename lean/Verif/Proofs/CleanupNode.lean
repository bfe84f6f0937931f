import Verif.Proofs.CleanupSim

/-!
The simulation of nodes, and of whole functions.
-/
namespace Ferlium.Cleanup

variable {σ : Type}

/-- At least so many steps are possible. -/
def Far (W : World σ) (bs : List Block) (n : Nat) (c : Conf σ) : Prop := ∃ j c', n ≤ j ∧ steps W bs j c = some c'

/-- At least one step. -/
def Jumps (W : World σ) (bs : List Block) (c c' : Conf σ) : Prop := ∃ j, 1 ≤ j ∧ steps W bs j c = some c'

theorem Far.zero {W : World σ} {bs : List Block} (c : Conf σ) : Far W bs 0 c := ⟨0, c, le_refl _, rfl⟩

theorem Far.mono {W : World σ} {bs : List Block} {m n : Nat} {c : Conf σ} (h : Far W bs n c) (hm : m ≤ n) : Far W bs m c := by
  obtain ⟨j, c', h1, h2⟩ := h
  exact ⟨j, c', by omega, h2⟩

theorem Goes.far {W : World σ} {bs : List Block} {n : Nat} {c c' : Conf σ} (h : Goes W bs c c') (k : Far W bs n c') :
    Far W bs n c := by
  obtain ⟨i, h⟩ := h
  obtain ⟨j, c2, h1, h2⟩ := k
  exact ⟨i + j, c2, by omega, by rw [steps_add W bs i j c c' h]; exact h2⟩

theorem Jumps.far {W : World σ} {bs : List Block} {n : Nat} {c c' : Conf σ} (h : Jumps W bs c c') (k : Far W bs n c') :
    Far W bs (n + 1) c := by
  obtain ⟨i, hi, h⟩ := h
  obtain ⟨j, c2, h1, h2⟩ := k
  exact ⟨i + j, c2, by omega, by rw [steps_add W bs i j c c' h]; exact h2⟩

theorem Jumps.goes {W : World σ} {bs : List Block} {c c' : Conf σ} (h : Jumps W bs c c') : Goes W bs c c' := by
  obtain ⟨j, _, h⟩ := h
  exact ⟨j, h⟩

theorem Goes.jumps {W : World σ} {bs : List Block} {a b c : Conf σ} (h : Goes W bs a b) (k : Jumps W bs b c) :
    Jumps W bs a c := by
  obtain ⟨i, h⟩ := h
  obtain ⟨j, hj, k⟩ := k
  exact ⟨i + j, by omega, by rw [steps_add W bs i j a b h]; exact k⟩

theorem Jumps.one {W : World σ} {bs : List Block} {a b : Conf σ} (h : stepOf W bs a = some b) : Jumps W bs a b :=
  ⟨1, le_refl _, by simp [steps, h]⟩

/-- Leaving the innermost `k` scopes for `o`. -/
theorem unwind_sim (W : World σ) (bs : List Block) : ∀ (k : Nat) (scs : List Scope) (b : B) (scs' : List Scope) (b' : B),
    Core b → ScopesOk b.pads b.scopes → ScopesOk b.pads scs → b.terminated = false →
    unwind k scs b = some (scs', b') → Ext W bs b' → ∀ (o : Out) (s : σ), o ≠ .fail → o ≠ .poison →
    ((leaveAll W ((actsOf scs).take k) (o, s)).1 = o →
      Goes W bs (here bs b s) (here bs b' (leaveAll W ((actsOf scs).take k) (o, s)).2)) ∧
    ((leaveAll W ((actsOf scs).take k) (o, s)).1 ≠ o →
      Goes W bs (here bs b s) (.fin (leaveAll W (actsOf scs) (o, s)).1 (leaveAll W (actsOf scs) (o, s)).2))
  | 0, scs, b, scs', b', c, _, hs, ht, h, e, o, s, ho, ho' => by
    simp only [unwind, Option.some.injEq, Prod.mk.injEq] at h
    obtain ⟨rfl, rfl⟩ := h
    simp only [List.take_zero]
    exact ⟨fun _ => Goes.rfl' _, fun h => absurd rfl h⟩
  | k + 1, [], b, scs', b', c, _, hs, ht, h, e, o, s, ho, ho' => by
    simp only [unwind, Option.some.injEq, Prod.mk.injEq] at h
    obtain ⟨rfl, rfl⟩ := h
    exact ⟨fun _ => Goes.rfl' _, fun h => absurd rfl h⟩
  | k + 1, sc :: rest, b, scs', b', c, hb, hs, ht, h, e, o, s, ho, ho' => by
    simp only [unwind, Option.bind_eq_some_iff, Option.map_eq_some_iff] at h
    obtain ⟨b1, h1, ⟨scs2, b2⟩, h2, h3⟩ := h
    simp only [Prod.mk.injEq] at h3
    obtain ⟨rfl, rfl⟩ := h3
    have hr : ∀ r : Option Nat × List Scope × B,
        r = (if sc.acts.reverse.any Op.fallible then padOf rest b else (none, rest, b)) →
        Core r.2.2 ∧ Side b r.2.2 ∧ ScopesOk r.2.2.pads r.2.1 ∧ actsOf r.2.1 = actsOf rest ∧
          (sc.acts.reverse.any Op.fallible = true → Chain r.2.2.pads (actsOf rest) r.1) := by
      rintro r rfl
      split
      · obtain ⟨k1, k2, k3, k4, k5⟩ := padOf_ok rest b c hs.2
        exact ⟨k1, k2, k4, k5, fun _ => k3⟩
      · rename_i hn
        exact ⟨c, Side.rfl' b, hs.2, rfl, fun h => absurd h hn⟩
    obtain ⟨k1, k2, k3, k4, k5⟩ := hr _ rfl
    have hb1 := hb.mono k2.grow.padsMono
    rw [← k2.scopes] at hb1
    obtain ⟨m1, m2, m3, m4, m5⟩ := inline_ok _ _ _ _ k1 hb1 h1
    have hb2 := hb1.mono m2.padsMono
    rw [← m3] at hb2
    obtain ⟨n1, n2, n3, n4, n5, n6, n7⟩ := unwind_ok k _ _ _ _ m1 hb2 (k3.mono m2.padsMono) h2
    have ht1 : ((if sc.acts.reverse.any Op.fallible then padOf rest b else (none, rest, b)).2.2).terminated = false := by
      rw [k2.terminated c]; exact ht
    have e1 := e.grow n2
    obtain ⟨q1, q2⟩ := inline_sim W bs (actsOf rest) _ _ _ _ k1 hb1 ht1 k5 h1 e1 o s ho ho'
    have hh : here bs (if sc.acts.reverse.any Op.fallible then padOf rest b else (none, rest, b)).2.2 s = here bs b s :=
      here_same k2.point (k2.same _ c.point) s
    rw [hh] at q1 q2
    have ih := unwind_sim W bs k _ _ _ _ m1 hb2 (k3.mono m2.padsMono) (m5 ht1) h2 e
    rw [k4] at ih
    have hl : leave W sc.acts (o, s) = close W sc.acts.reverse o s := by simp [leave, ho']
    have ha : actsOf (sc :: rest) = sc.acts :: actsOf rest := rfl
    rw [ha, List.take_succ_cons, leaveAll_cons, leaveAll_cons, hl]
    by_cases hc : (close W sc.acts.reverse o s).1 = o
    · have he : close W sc.acts.reverse o s = (o, (close W sc.acts.reverse o s).2) := Prod.ext hc rfl
      obtain ⟨i1, i2⟩ := ih o (close W sc.acts.reverse o s).2 ho ho'
      rw [← he] at i1 i2
      exact ⟨fun h => (q1 hc).trans (i1 h), fun h => (q1 hc).trans (i2 h)⟩
    · refine ⟨fun h => ?_, fun _ => q2 hc⟩
      exfalso
      rcases close_out W sc.acts.reverse o s with h' | h' | h'
      · exact hc h'
      · rcases leaveAll_out W ((actsOf rest).take k) (close W sc.acts.reverse o s) with h2 | h2 | h2
        · rw [h, h'] at h2; exact ho h2
        · rw [h] at h2; exact ho h2
        · rw [h] at h2; exact ho' h2
      · rcases leaveAll_out W ((actsOf rest).take k) (close W sc.acts.reverse o s) with h2 | h2 | h2
        · rw [h, h'] at h2; exact ho' h2
        · rw [h] at h2; exact ho h2
        · rw [h] at h2; exact ho' h2

/-- Leaving scopes for a block of a loop. -/
def JumpTo (W : World σ) (bs : List Block) (A : List (List Op)) (d x : Nat) (o : Out) (s : σ) (c : Conf σ) : Prop :=
  ((leaveAll W (A.take (A.length - d)) (o, s)).1 = o →
    Jumps W bs c (startOf bs x (leaveAll W (A.take (A.length - d)) (o, s)).2)) ∧
  ((leaveAll W (A.take (A.length - d)) (o, s)).1 ≠ o →
    Goes W bs c (.fin (leaveAll W A (o, s)).1 (leaveAll W A (o, s)).2))

/-- The code leaves a node whose scopes are `A` in this way. -/
def Exit (W : World σ) (bs : List Block) (loops : List (Nat × Frame)) (A : List (List Op)) (c : Conf σ) (r : Out × σ) : Prop :=
  match r.1 with
  | .done => False
  | .brk l => ∃ fr, frameOf loops l = some fr ∧ JumpTo W bs A fr.depth fr.exit (.brk l) r.2 c
  | .cont l => ∃ fr, frameOf loops l = some fr ∧ JumpTo W bs A fr.depth fr.head (.cont l) r.2 c
  | _ => Goes W bs c (.fin (leaveAll W A r).1 (leaveAll W A r).2)

theorem jumpTo_leave {W : World σ} {bs : List Block} {a : List Op} {A : List (List Op)} {d x : Nat} {o : Out} {s : σ}
    {c : Conf σ} (hd : d ≤ A.length) (h : JumpTo W bs (a :: A) d x o s c) :
    ((leave W a (o, s)).1 = o → JumpTo W bs A d x o (leave W a (o, s)).2 c) ∧
    ((leave W a (o, s)).1 ≠ o → o ≠ .fail → o ≠ .poison → Goes W bs c (.fin (leaveAll W A (leave W a (o, s))).1
      (leaveAll W A (leave W a (o, s))).2)) := by
  unfold JumpTo at h
  have ht : (a :: A).length - d = (A.length - d) + 1 := by simp; omega
  rw [ht, List.take_succ_cons, leaveAll_cons, leaveAll_cons] at h
  constructor
  · intro ho
    have he : leave W a (o, s) = (o, (leave W a (o, s)).2) := Prod.ext ho rfl
    rw [he] at h
    exact h
  · intro hne hf hp
    refine h.2 ?_
    intro hh
    rcases leave_out W a (o, s) with h' | h' | h'
    · exact hne h'
    · rcases leaveAll_out W (A.take (A.length - d)) (leave W a (o, s)) with h2 | h2 | h2
      · rw [hh, h'] at h2; exact hf h2
      · rw [hh] at h2; exact hf h2
      · rw [hh] at h2; exact hp h2
    · rcases leaveAll_out W (A.take (A.length - d)) (leave W a (o, s)) with h2 | h2 | h2
      · rw [hh, h'] at h2; exact hp h2
      · rw [hh] at h2; exact hf h2
      · rw [hh] at h2; exact hp h2

theorem Exit.fin' {W : World σ} {bs : List Block} {loops : List (Nat × Frame)} {A : List (List Op)} {c : Conf σ}
    {r : Out × σ} (h : r.1 = .fail ∨ r.1 = .poison)
    (hg : Goes W bs c (.fin (leaveAll W A r).1 (leaveAll W A r).2)) : Exit W bs loops A c r := by
  unfold Exit
  rcases h with h | h <;> rw [h] <;> exact hg

theorem Exit.leave {W : World σ} {bs : List Block} {loops : List (Nat × Frame)} {a : List Op} {A : List (List Op)}
    {c : Conf σ} {r : Out × σ} (hd : ∀ l fr, frameOf loops l = some fr → fr.depth ≤ A.length)
    (h : Exit W bs loops (a :: A) c r) : Exit W bs loops A c (leave W a r) := by
  obtain ⟨o, s⟩ := r
  cases o with
  | done => exact absurd h (by simp [Exit])
  | brk l =>
    simp only [Exit] at h
    obtain ⟨fr, h1, h2⟩ := h
    obtain ⟨k1, k2⟩ := jumpTo_leave (hd l fr h1) h2
    by_cases ho : (Cleanup.leave W a (.brk l, s)).1 = .brk l
    · simp only [Exit, ho]
      exact ⟨fr, h1, k1 ho⟩
    · refine Exit.fin' ?_ (k2 ho (by simp) (by simp))
      rcases leave_out W a (.brk l, s) with h | h | h
      · exact absurd h ho
      · exact Or.inl h
      · exact Or.inr h
  | cont l =>
    simp only [Exit] at h
    obtain ⟨fr, h1, h2⟩ := h
    obtain ⟨k1, k2⟩ := jumpTo_leave (hd l fr h1) h2
    by_cases ho : (Cleanup.leave W a (.cont l, s)).1 = .cont l
    · simp only [Exit, ho]
      exact ⟨fr, h1, k1 ho⟩
    · refine Exit.fin' ?_ (k2 ho (by simp) (by simp))
      rcases leave_out W a (.cont l, s) with h | h | h
      · exact absurd h ho
      · exact Or.inl h
      · exact Or.inr h
  | ret =>
    simp only [Exit, leaveAll_cons] at h
    unfold Exit
    rcases leave_out W a (.ret, s) with h' | h' | h' <;> rw [h'] <;> exact h
  | fail =>
    simp only [Exit, leaveAll_cons] at h
    unfold Exit
    rcases leave_out W a (.fail, s) with h' | h' | h' <;> rw [h'] <;> exact h
  | poison =>
    simp only [Exit, leaveAll_cons] at h
    unfold Exit
    rcases leave_out W a (.poison, s) with h' | h' | h' <;> rw [h'] <;> exact h

theorem Exit.not_done {W : World σ} {bs : List Block} {loops : List (Nat × Frame)} {A : List (List Op)} {c : Conf σ}
    {r : Out × σ} (h : Exit W bs loops A c r) : r.1 ≠ .done := by
  intro hd
  unfold Exit at h
  rw [hd] at h
  exact h

theorem Goes.exit {W : World σ} {bs : List Block} {loops : List (Nat × Frame)} {A : List (List Op)} {c c' : Conf σ}
    {r : Out × σ} (g : Goes W bs c c') (h : Exit W bs loops A c' r) : Exit W bs loops A c r := by
  obtain ⟨o, s⟩ := r
  cases o with
  | done => exact absurd h (by simp [Exit])
  | brk l =>
    simp only [Exit] at h ⊢
    obtain ⟨fr, h1, h2⟩ := h
    exact ⟨fr, h1, fun ho => g.jumps (h2.1 ho), fun ho => g.trans (h2.2 ho)⟩
  | cont l =>
    simp only [Exit] at h ⊢
    obtain ⟨fr, h1, h2⟩ := h
    exact ⟨fr, h1, fun ho => g.jumps (h2.1 ho), fun ho => g.trans (h2.2 ho)⟩
  | ret => exact g.trans h
  | fail => exact g.trans h
  | poison => exact g.trans h

theorem Exit.loops {W : World σ} {bs : List Block} {loops loops' : List (Nat × Frame)} {A : List (List Op)} {c : Conf σ}
    {r : Out × σ} (hl : ∀ l fr, frameOf loops l = some fr → frameOf loops' l = some fr)
    (h : Exit W bs loops A c r) : Exit W bs loops' A c r := by
  obtain ⟨o, s⟩ := r
  cases o with
  | done => exact absurd h (by simp [Exit])
  | brk l =>
    simp only [Exit] at h ⊢
    obtain ⟨fr, h1, h2⟩ := h
    exact ⟨fr, hl l fr h1, h2⟩
  | cont l =>
    simp only [Exit] at h ⊢
    obtain ⟨fr, h1, h2⟩ := h
    exact ⟨fr, hl l fr h1, h2⟩
  | ret => exact h
  | fail => exact h
  | poison => exact h

/-- The code from `c` does what the node says: it reaches the place of `b'`, leaves, or goes on as long. -/
def Goal (W : World σ) (bs : List Block) (loops : List (Nat × Frame)) (A : List (List Op)) (b' : B) (k : Nat) (c : Conf σ) :
    Option (Out × σ) → Prop
  | none => Far W bs k c
  | some (.done, s) => b'.terminated = false ∧ Goes W bs c (here bs b' s)
  | some r => Exit W bs loops A c r

theorem Goal.exit {W : World σ} {bs : List Block} {loops : List (Nat × Frame)} {A : List (List Op)} {b' : B} {k : Nat}
    {c : Conf σ} {r : Out × σ} (h : Exit W bs loops A c r) : Goal W bs loops A b' k c (some r) := by
  have := h.not_done
  obtain ⟨o, s⟩ := r
  cases o with
  | done => exact absurd rfl this
  | _ => exact h

theorem Goal.toExit {W : World σ} {bs : List Block} {loops : List (Nat × Frame)} {A : List (List Op)} {b' : B} {k : Nat}
    {c : Conf σ} {r : Out × σ} (hr : r.1 ≠ .done) (h : Goal W bs loops A b' k c (some r)) : Exit W bs loops A c r := by
  obtain ⟨o, s⟩ := r
  cases o with
  | done => exact absurd rfl hr
  | _ => exact h

theorem Goes.goal {W : World σ} {bs : List Block} {loops : List (Nat × Frame)} {A : List (List Op)} {b' : B} {k : Nat}
    {c c' : Conf σ} {r : Option (Out × σ)} (g : Goes W bs c c') (h : Goal W bs loops A b' k c' r) :
    Goal W bs loops A b' k c r := by
  match r, h with
  | none, h => exact g.far h
  | some (.done, s), h => exact ⟨h.1, g.trans h.2⟩
  | some (.brk l, s), h => exact Goal.exit (g.exit (Goal.toExit (by simp) h))
  | some (.cont l, s), h => exact Goal.exit (g.exit (Goal.toExit (by simp) h))
  | some (.ret, s), h => exact Goal.exit (g.exit (Goal.toExit (by simp) h))
  | some (.fail, s), h => exact Goal.exit (g.exit (Goal.toExit (by simp) h))
  | some (.poison, s), h => exact Goal.exit (g.exit (Goal.toExit (by simp) h))

theorem Goal.loops {W : World σ} {bs : List Block} {loops loops' : List (Nat × Frame)} {A : List (List Op)} {b' : B} {k : Nat}
    {c : Conf σ} {r : Option (Out × σ)} (hl : ∀ l fr, frameOf loops l = some fr → frameOf loops' l = some fr)
    (h : Goal W bs loops A b' k c r) : Goal W bs loops' A b' k c r := by
  match r, h with
  | none, h => exact h
  | some (.done, s), h => exact h
  | some (.brk l, s), h => exact Goal.exit (Exit.loops hl (Goal.toExit (by simp) h))
  | some (.cont l, s), h => exact Goal.exit (Exit.loops hl (Goal.toExit (by simp) h))
  | some (.ret, s), h => exact h
  | some (.fail, s), h => exact h
  | some (.poison, s), h => exact h

/-- Something after something, if that completes. -/
def andThen (r : Option (Out × σ)) (next : σ → Option (Out × σ)) : Option (Out × σ) :=
  match r with
  | some (.done, s) => next s
  | r => r

/-- Node after node. -/
theorem Goal.seq {W : World σ} {bs : List Block} {b b1 b' : B} {k : Nat} {c : Conf σ} {r : Option (Out × σ)}
    {next : σ → Option (Out × σ)} (ha : After b b1)
    (h1 : Goal W bs b.loops (actsOf b.scopes) b1 k c r)
    (h2 : ∀ s, b1.terminated = false → Goal W bs b1.loops (actsOf b1.scopes) b' k (here bs b1 s) (next s)) :
    Goal W bs b.loops (actsOf b.scopes) b' k c (andThen r next) := by
  match r, h1 with
  | none, h => exact h
  | some (.done, s), h =>
    have := h2 s h.1
    rw [ha.acts] at this
    exact h.2.goal (this.loops ha.loops)
  | some (.brk l, s), h => exact h
  | some (.cont l, s), h => exact h
  | some (.ret, s), h => exact h
  | some (.fail, s), h => exact h
  | some (.poison, s), h => exact h

/-- Leaving the scope entered before, normally. -/
theorem exitScope_sim {W : World σ} {bs : List Block} {b b' : B} (f : Fine b) {acts : List Op} {A : List (List Op)}
    (ha : actsOf b.scopes = acts :: A) (ht : b.terminated = false) (h : b.exitScope = some b') (e : Ext W bs b')
    (loops : List (Nat × Frame)) (k : Nat) (s : σ) :
    Goal W bs loops A b' k (here bs b s) (some (leave W acts (.done, s))) := by
  unfold B.exitScope at h
  split at h
  · cases h
  · rename_i sc rest hsc
    rw [hsc] at ha
    simp only [actsOf, List.map_cons, List.cons.injEq] at ha
    obtain ⟨ha1, ha2⟩ := ha
    have fs := f.scopes
    rw [hsc] at fs
    have c1 : Core { b with scopes := rest } := f.core.cast rfl rfl rfl rfl rfl
    have hr : ∀ r : Option Nat × B,
        r = (if sc.acts.reverse.any Op.fallible then ({ b with scopes := rest } : B).innermost else (none, { b with scopes := rest })) →
        Core r.2 ∧ ScopesOk r.2.pads r.2.scopes ∧ r.2.point = b.point ∧ r.2.blocks[b.point]? = b.blocks[b.point]? ∧
          (sc.acts.reverse.any Op.fallible = true → Chain r.2.pads A r.1) := by
      rintro r rfl
      split
      · obtain ⟨k1, k2, k3, k4, k5⟩ := padOf_ok rest { b with scopes := rest } c1 fs.2
        refine ⟨k1.cast rfl rfl rfl rfl rfl, k4, k2.point, k2.same _ f.core.point, fun _ => ?_⟩
        rw [← ha2]; exact k3
      · rename_i hn
        exact ⟨c1, fs.2, rfl, rfl, fun h => absurd h hn⟩
    obtain ⟨k1, k2, k3, k4, k5⟩ := hr _ rfl
    have ht1 : ((if sc.acts.reverse.any Op.fallible then ({ b with scopes := rest } : B).innermost
        else (none, { b with scopes := rest })).2).terminated = false := by
      unfold B.terminated at ht ⊢
      rw [k3, k4]; exact ht
    obtain ⟨m1, m2, m3, m4, m5⟩ := inline_ok _ _ _ _ k1 k2 h
    obtain ⟨q1, q2⟩ := inline_sim W bs A _ _ _ _ k1 k2 ht1 k5 h e .done s (by simp) (by simp)
    have hh : here bs (if sc.acts.reverse.any Op.fallible then ({ b with scopes := rest } : B).innermost
        else (none, { b with scopes := rest })).2 s = here bs b s := here_same k3 k4 s
    rw [hh] at q1 q2
    have hl : leave W acts (.done, s) = close W sc.acts.reverse .done s := by simp [leave, ha1]
    rw [hl]
    by_cases hc : (close W sc.acts.reverse .done s).1 = .done
    · have he : close W sc.acts.reverse .done s = (.done, (close W sc.acts.reverse .done s).2) := Prod.ext hc rfl
      rw [he]
      exact ⟨m5 ht1, q1 hc⟩
    · refine Goal.exit (Exit.fin' ?_ (q2 hc))
      rcases close_out W sc.acts.reverse .done s with h | h | h
      · exact absurd h hc
      · exact Or.inl h
      · exact Or.inr h

/-- A scope around something. -/
theorem Goal.scope {W : World σ} {bs : List Block} {b b' : B} (f : Fine b) {acts : List Op} {loops : List (Nat × Frame)}
    {A : List (List Op)} (ha : actsOf b.scopes = acts :: A) (hd : ∀ l fr, frameOf loops l = some fr → fr.depth ≤ A.length)
    (h : b.exitScope = some b') (e : Ext W bs b') {k : Nat} {c : Conf σ} {r : Option (Out × σ)}
    (hg : Goal W bs loops (acts :: A) b k c r) : Goal W bs loops A b' k c (r.map (leave W acts)) := by
  match r, hg with
  | none, h => exact h
  | some (.done, s), hg => exact hg.2.goal (exitScope_sim f ha hg.1 h e loops k s)
  | some (.brk l, s), hg => exact Goal.exit (Exit.leave hd (Goal.toExit (by simp) hg))
  | some (.cont l, s), hg => exact Goal.exit (Exit.leave hd (Goal.toExit (by simp) hg))
  | some (.ret, s), hg => exact Goal.exit (Exit.leave hd (Goal.toExit (by simp) hg))
  | some (.fail, s), hg => exact Goal.exit (Exit.leave hd (Goal.toExit (by simp) hg))
  | some (.poison, s), hg => exact Goal.exit (Exit.leave hd (Goal.toExit (by simp) hg))

end Ferlium.Cleanup
