import Verif.Proofs.Exec

/-! Every run of a program whose loops check fuel and whose recursive functions check the call depth
ends, when a fuel limit is set. -/

namespace Ferlium.Exec

/-! ### Call depth is restored -/

/-- The depth at the end, when the observation reached the end. -/
def DepthOk (d : Nat) (r : Out × St) : Prop := r.1 ≠ .cut → r.2.depth = d

theorem sandboxViolation_depth (k : VKind) (s : St) : (sandboxViolation k s).2.depth = s.depth := rfl

theorem cleanupAfterError_depth {d : Nat} {e : RErr} {c : St → Out × St} {s : St} (hs : s.depth = d)
    (hc : ∀ s, DepthOk s.depth (c s)) : DepthOk d (cleanupAfterError e c s) := by
  subst hs
  have h := hc s
  unfold cleanupAfterError
  cases e with
  | sandbox v => intro _; rfl
  | during a b => intro _; rfl
  | source a =>
    simp only []
    rcases hcs : c s with ⟨o, s'⟩
    rw [hcs] at h
    cases o with
    | cut => intro h'; exact absurd rfl h'
    | ok f => intro _; exact h (by simp)
    | err e => cases e <;> (intro _; exact h (by simp))

theorem underFrame_depth {d : Nat} {r : Out × St} {c : St → Out × St} (hr : DepthOk d r)
    (hc : ∀ s, DepthOk s.depth (c s)) : DepthOk d (underFrame r c) := by
  rcases r with ⟨o, s⟩
  cases o with
  | cut => exact hr
  | ok f => exact hr
  | err e => exact cleanupAfterError_depth (hr (by simp)) hc

theorem leaveFrame_depth {d env : Nat} {r : Out × St} (hr : DepthOk (d + 1) r) :
    DepthOk d (leaveFrame env r) := by
  rcases r with ⟨o, s⟩
  cases o with
  | cut => exact fun h => absurd rfl h
  | ok f => intro _; have := hr (by simp); simp only [leaveFrame] at *; omega
  | err e => intro _; have := hr (by simp); simp only [leaveFrame] at *; omega

theorem withFrame_depth {d f : Nat} {r : Out × St} (hr : DepthOk d r) :
    DepthOk d (r.1.withFrame f, r.2) := by
  rcases r with ⟨o, s⟩
  cases o with
  | cut => exact fun h => absurd rfl h
  | ok f => exact hr
  | err e => intro _; exact hr (by simp)

theorem toValue_depth {d : Nat} {r : Out × St} (hr : DepthOk d r) : DepthOk d (r.1.toValue, r.2) := by
  rcases r with ⟨o, s⟩
  cases o with
  | cut => exact fun h => absurd rfl h
  | ok f => intro _; exact hr (by simp)
  | err e => exact hr

theorem combineYielded_depth {d : Nat} {b e : Out} {s : St} (h : s.depth = d) :
    DepthOk d (combineYielded b e s) := by
  intro hc
  cases b with
  | cut => exact absurd rfl hc
  | ok f => cases e <;> first | exact absurd rfl hc | exact h
  | err a =>
    cases e with
    | cut => exact absurd rfl hc
    | ok f => exact h
    | err b => cases a <;> cases b <;> exact h

theorem afterBody_depth {d env f : Nat} {ep dr sc : St → Out × St} {b : Out} {s : St}
    (hs : b ≠ .cut → s.depth = d + 1) (he : ∀ s, DepthOk s.depth (ep s))
    (hd : ∀ s, DepthOk s.depth (dr s)) (hsc : ∀ s, DepthOk s.depth (sc s)) :
    DepthOk d (afterBody env f ep dr sc b s) := by
  by_cases hcut : b = .cut
  · subst hcut; exact fun h => absurd rfl h
  have hs := hs hcut
  have hr : DepthOk d (resumeOrAbandon f ep dr b.isPoisoning s) := by
    unfold resumeOrAbandon
    split_ifs
    · intro _; simp only []; omega
    · refine withFrame_depth (r := leaveFrame s.env (underFrame (ep s) dr)) (leaveFrame_depth ?_)
      refine underFrame_depth ?_ hd
      rw [← hs]; exact he s
  have hds : DepthOk d (dropScopes sc b (resumeOrAbandon f ep dr b.isPoisoning s)) := by
    rcases hro : resumeOrAbandon f ep dr b.isPoisoning s with ⟨o, s'⟩
    rw [hro] at hr
    cases o with
    | cut => exact fun h => absurd rfl h
    | ok fl =>
      have h' := hr (by simp)
      unfold dropScopes
      simp only []
      split_ifs
      · exact hr
      · have hx := hsc s'
        rcases hscs : sc s' with ⟨o, s''⟩
        rw [hscs] at hx
        cases o with
        | cut => exact fun h => absurd rfl h
        | ok _ => intro _; rw [← h']; exact hx (by simp)
        | err _ => intro _; rw [← h']; exact hx (by simp)
    | err e =>
      have h' := hr (by simp)
      unfold dropScopes
      cases b with
      | cut => exact absurd rfl hcut
      | err _ => exact hr
      | ok fl =>
        simp only []
        split_ifs
        · exact hr
        · exact cleanupAfterError_depth h' hsc
  have fin : ∀ r : Out × St, DepthOk d r →
      DepthOk d (match r with
        | (.cut, s) => (.cut, s)
        | (er, s) => combineYielded b er { s with env := env }) := by
    rintro ⟨o, s'⟩ h
    cases o with
    | cut => exact fun h => absurd rfl h
    | ok fl => exact combineYielded_depth (h (by simp))
    | err e => exact combineYielded_depth (h (by simp))
  have := fin _ hds
  cases b with
  | cut => exact absurd rfl hcut
  | ok fl => exact this
  | err e => exact this

theorem run_depth (fns : Nat → Fn) : ∀ (n : Nat) (p : Prog) (s : St),
    DepthOk s.depth (run fns n p s) := by
  intro n
  induction n with
  | zero => intro p s h; simp [run] at h
  | succ n ih =>
    intro p s
    cases p with
    | act k => intro _; rfl
    | fail k => intro _; rfl
    | checkFuel =>
      intro _
      show (checkFuel s).2.depth = s.depth
      unfold checkFuel
      cases s.fuel with
      | none => rfl
      | some m => cases m <;> rfl
    | checkDepth =>
      intro _
      show (checkCallDepth s).2.depth = s.depth
      unfold checkCallDepth
      split_ifs <;> rfl
    | alloc =>
      intro _
      show (allocCell s).2.depth = s.depth
      unfold allocCell
      split_ifs <;> rfl
    | done => intro _; rfl
    | exit t => intro _; rfl
    | seq p q =>
      have hp := ih p s
      simp only [run]
      rcases hr : run fns n p s with ⟨o, s'⟩
      rw [hr] at hp
      cases o with
      | cut => exact hp
      | err e => exact hp
      | ok f =>
        cases f with
        | cont => have := ih q s'; rw [show s'.depth = s.depth from hp (by simp)] at this; exact this
        | transfer t => exact hp
    | choose p q =>
      simp only [run]
      split_ifs
      · exact ih p { s with choices := fun i => s.choices (i + 1) }
      · exact ih q { s with choices := fun i => s.choices (i + 1) }
    | loop l p =>
      have hp := ih p s
      simp only [run]
      rcases hr : run fns n p s with ⟨o, s'⟩
      rw [hr] at hp
      cases o with
      | cut => exact hp
      | err e => exact hp
      | ok f =>
        simp only []
        cases hl : loopStep l f with
        | some f' => intro _; exact hp (by simp)
        | none =>
          have := ih (.loop l p) s'
          rw [show s'.depth = s.depth from hp (by simp)] at this
          exact this
    | block p drops =>
      have hp := ih p s
      simp only [run]
      rcases hr : run fns n p s with ⟨o, s'⟩
      rw [hr] at hp
      cases o with
      | cut => exact hp
      | ok f =>
        have := ih drops s'
        rw [show s'.depth = s.depth from hp (by simp)] at this
        simp only []
        rcases hd : run fns n drops s' with ⟨o, s''⟩
        rw [hd] at this
        cases o with
        | cut => exact this
        | ok _ => intro _; exact this (by simp)
        | err _ => intro _; exact this (by simp)
      | err e =>
        have hc := cleanupAfterError_depth (e := e) (hp (by simp)) (ih drops)
        simp only []
        rcases hcl : cleanupAfterError e (run fns n drops) s' with ⟨o, s''⟩
        rw [hcl] at hc
        cases o with
        | cut => exact hc
        | ok _ => intro _; exact hc (by simp)
        | err _ => intro _; exact hc (by simp)
    | call f args =>
      simp only [run]
      cases hef : enterFrame args s with
      | error es =>
        intro _
        simp only []
        unfold enterFrame ensureRunnable at hef
        cases hp : s.poison with
        | some e => rw [hp] at hef; simp only [] at hef; injection hef with hef; rw [← hef]
        | none =>
          rw [hp] at hef
          simp only [] at hef
          split_ifs at hef
          injection hef with hef; rw [← hef]; rfl
      | ok s' =>
        have hs' : s'.depth = s.depth + 1 := by
          unfold enterFrame ensureRunnable at hef
          cases hp : s.poison with
          | some e => rw [hp] at hef; cases hef
          | none =>
            rw [hp] at hef
            simp only [] at hef
            split_ifs at hef
            injection hef with hef; rw [← hef]
        have hb := ih (fns f).body s'
        rw [hs'] at hb
        have := leaveFrame_depth (env := s.env) (underFrame_depth hb (ih (fns f).frameDrops))
        exact withFrame_depth (f := f) (toValue_depth this)
    | withYielded f args body scopes =>
      simp only [run]
      cases hef : enterFrame args s with
      | error es =>
        intro _
        simp only []
        unfold enterFrame ensureRunnable at hef
        cases hp : s.poison with
        | some e => rw [hp] at hef; simp only [] at hef; injection hef with hef; rw [← hef]
        | none =>
          rw [hp] at hef
          simp only [] at hef
          split_ifs at hef
          injection hef with hef; rw [← hef]; rfl
      | ok s' =>
        have hs' : s'.depth = s.depth + 1 := by
          unfold enterFrame ensureRunnable at hef
          cases hp : s.poison with
          | some e => rw [hp] at hef; cases hef
          | none =>
            rw [hp] at hef
            simp only [] at hef
            split_ifs at hef
            injection hef with hef; rw [← hef]
        have hb := ih (fns f).body s'
        rw [hs'] at hb
        simp only []
        rcases hr : run fns n (fns f).body s' with ⟨o, s₁⟩
        rw [hr] at hb
        cases o with
        | cut => exact fun h => absurd rfl h
        | err e =>
          have := leaveFrame_depth (env := s.env)
            (cleanupAfterError_depth (e := e) (hb (by simp)) (ih (fns f).frameDrops))
          exact withFrame_depth (f := f) this
        | ok fl =>
          refine afterBody_depth ?_ (ih _) (ih _) (ih _)
          intro hne
          have := ih body s₁ hne
          rw [this]
          exact hb (by simp)

/-! ### Termination -/

/-- The code of a loop body or function body that starts with a check, as the compiler emits it:
src/types/type_inference/expr.rs 1973-1990 and src/hir/emit_functions.rs 335-365 wrap the body in a
block `[check, body]` without cleanup. -/
def guarded (check b : Prog) : Prog := .block (.seq check b) .done

/-- Every loop of the program starts each iteration with a fuel check. -/
def LoopsChecked : Prog → Prop
  | .seq p q => LoopsChecked p ∧ LoopsChecked q
  | .choose p q => LoopsChecked p ∧ LoopsChecked q
  | .loop _ p => (∃ b, p = guarded .checkFuel b) ∧ LoopsChecked p
  | .block p d => LoopsChecked p ∧ LoopsChecked d
  | .withYielded _ _ b sc => LoopsChecked b ∧ LoopsChecked sc
  | _ => True

/-- Does the function check the call depth on entry? -/
def ChecksDepth (fns : Nat → Fn) (f : Nat) : Prop := ∃ b, (fns f).body = guarded .checkDepth b

/-- Every function called directly by the program checks the call depth or has a smaller rank. -/
def CallsBelow (fns : Nat → Fn) (rank : Nat → Nat) (r : Nat) : Prog → Prop
  | .seq p q => CallsBelow fns rank r p ∧ CallsBelow fns rank r q
  | .choose p q => CallsBelow fns rank r p ∧ CallsBelow fns rank r q
  | .loop _ p => CallsBelow fns rank r p
  | .block p d => CallsBelow fns rank r p ∧ CallsBelow fns rank r d
  | .call f _ => ChecksDepth fns f ∨ rank f < r
  | .withYielded f _ b sc => (ChecksDepth fns f ∨ rank f < r) ∧ CallsBelow fns rank r b ∧
      CallsBelow fns rank r sc
  | _ => True

/-- The function table is what the compiler produces: loops check fuel and every cycle of calls goes
through a function that checks the call depth. -/
structure Instrumented (fns : Nat → Fn) (rank : Nat → Nat) : Prop where
  loops : ∀ f, LoopsChecked (fns f).body ∧ LoopsChecked (fns f).frameDrops ∧
    LoopsChecked (fns f).epilogue
  calls : ∀ f, CallsBelow fns rank (rank f) (fns f).body ∧
    CallsBelow fns rank (rank f) (fns f).frameDrops ∧ CallsBelow fns rank (rank f) (fns f).epilogue

/-- Eventually constant. -/
def Conv (g : Nat → Out × St) (x : Out × St) : Prop := ∃ N, ∀ m, N ≤ m → g m = x

/-- Reaches an end. -/
def Halts (g : Nat → Out × St) : Prop := ∃ x : Out × St, x.1 ≠ .cut ∧ Conv g x

theorem Halts.shift {g h : Nat → Out × St} (e : ∀ n, g (n + 1) = h n) (hh : Halts h) : Halts g := by
  obtain ⟨x, hx, N, hN⟩ := hh
  refine ⟨x, hx, N + 1, fun m hm => ?_⟩
  obtain ⟨k, rfl⟩ : ∃ k, m = k + 1 := ⟨m - 1, by omega⟩
  rw [e]; exact hN k (by omega)

theorem Halts.const (x : Out × St) (h : x.1 ≠ .cut) : Halts fun _ => x := ⟨x, h, 0, fun _ _ => rfl⟩

/-- Continue a computation that reaches an end. -/
theorem Halts.bind {g : Nat → Out × St} {k : Out × St → Nat → Out × St} {x : Out × St}
    (hg : Conv g x) (hk : Halts (k x)) : Halts fun n => k (g n) n := by
  obtain ⟨N, hN⟩ := hg
  obtain ⟨y, hy, M, hM⟩ := hk
  refine ⟨y, hy, max N M, fun m hm => ?_⟩
  simp only []
  rw [hN m (le_trans (le_max_left _ _) hm)]
  exact hM m (le_trans (le_max_right _ _) hm)

/-- Postprocessing that never stops the observation. -/
theorem Halts.map {g : Nat → Out × St} (k : Out × St → Out × St) (hg : Halts g)
    (hk : ∀ x, x.1 ≠ .cut → (k x).1 ≠ .cut) : Halts fun n => k (g n) := by
  obtain ⟨x, hx, hc⟩ := hg
  exact Halts.bind (k := fun y _ => k y) hc (Halts.const _ (hk x hx))

theorem withFrame_ne_cut {o : Out} (h : o ≠ .cut) (f : Nat) : o.withFrame f ≠ .cut := by
  cases o <;> simp_all [Out.withFrame]

theorem toValue_ne_cut {o : Out} (h : o ≠ .cut) : o.toValue ≠ .cut := by
  cases o <;> simp_all [Out.toValue]

theorem leaveFrame_ne_cut {env : Nat} {r : Out × St} (h : r.1 ≠ .cut) : (leaveFrame env r).1 ≠ .cut := by
  rcases r with ⟨o, s⟩
  cases o <;> simp_all [leaveFrame]

theorem finishBlock_ne_cut {env : Nat} {f : Flow} {r : Out × St} (h : r.1 ≠ .cut) :
    (finishBlock env f r).1 ≠ .cut := by
  rcases r with ⟨o, s⟩
  cases o <;> simp_all [finishBlock]

theorem combineYielded_ne_cut {b e : Out} {s : St} (hb : b ≠ .cut) (he : e ≠ .cut) :
    (combineYielded b e s).1 ≠ .cut := by
  cases b <;> cases e <;> simp_all [combineYielded]

theorem cleanup_halts {e : RErr} {c : Nat → St → Out × St} {s : St}
    (h : e.isPoisoning = false → Halts fun n => c n s) :
    Halts fun n => cleanupAfterError e (c n) s := by
  cases e with
  | sandbox v => exact Halts.const _ (by simp [cleanupAfterError])
  | during a b => exact Halts.const _ (by simp [cleanupAfterError])
  | source a =>
    obtain ⟨x, hx, N, hN⟩ := h rfl
    refine ⟨cleanupAfterError (.source a) (fun _ => x) s, ?_, N, fun m hm => ?_⟩
    · rcases x with ⟨o, s'⟩
      cases o with
      | cut => exact absurd rfl hx
      | ok f => simp [cleanupAfterError]
      | err e => cases e <;> simp [cleanupAfterError]
    · simp only [cleanupAfterError, hN m hm]

theorem underFrame_halts {r : Out × St} {c : Nat → St → Out × St} (hr : r.1 ≠ .cut)
    (h : ∀ e, r.1 = .err e → e.isPoisoning = false → Halts fun n => c n r.2) :
    Halts fun n => underFrame r (c n) := by
  rcases r with ⟨o, s⟩
  cases o with
  | cut => exact absurd rfl hr
  | ok f => exact Halts.const _ (by simp [underFrame])
  | err e => exact cleanup_halts (h e rfl)

/-- What is known of the state when code is started: running, with fuel `F` and `D` levels left. -/
structure At (F D : Nat) (s : St) : Prop where
  run : s.poison = none
  fuel : s.fuel = some F
  levels : s.depthLimit - s.depth = D

/-- After code that left the executor running, there is no more fuel than before and the same number
of levels. -/
theorem at_after {fns : Nat → Fn} {n : Nat} {p : Prog} {s s' : St} {o : Out} {F D : Nat} (h : At F D s)
    (hr : run fns n p s = (o, s')) (hc : o ≠ .cut) (ho : o.isPoisoning = false) :
    ∃ F' ≤ F, At F' D s' := by
  have hg := run_good fns n p s h.run
  have hd := run_depth fns n p s
  rw [hr] at hg hd
  obtain ⟨g1, g2, ⟨t, ht, hp, hf, hu⟩, g4⟩ := hg
  rw [h.fuel] at hu
  obtain ⟨m, hm, hm', _⟩ := hu
  refine ⟨m, by omega, ?_, hm, ?_⟩
  · cases o with
    | cut => exact absurd rfl hc
    | ok f => exact g4
    | err e =>
      cases e with
      | source a => simpa [StateOk, RErr.isPoisoning] using g4
      | sandbox v => cases ho
      | during a b => cases ho
  · rw [g1, hd hc]; exact h.levels

/-- The same for anything built from safe code. -/
theorem at_good {s s' : St} {o : Out} {F D : Nat} (h : At F D s) (hg : Good s o s')
    (hd : s'.depthLimit - s'.depth = D) (hc : o ≠ .cut) (ho : o.isPoisoning = false) :
    ∃ F' ≤ F, At F' D s' := by
  obtain ⟨g1, g2, ⟨t, ht, hp, hf, hu⟩, g4⟩ := hg
  rw [h.fuel] at hu
  obtain ⟨m, hm, hm', _⟩ := hu
  refine ⟨m, by omega, ?_, hm, hd⟩
  cases o with
  | cut => exact absurd rfl hc
  | ok f => exact g4
  | err e =>
    cases e with
    | source a => simpa [StateOk, RErr.isPoisoning] using g4
    | sandbox v => cases ho
    | during a b => cases ho

/-- An iteration of a checked loop that succeeds uses fuel. -/
theorem guarded_fuel {fns : Nat → Fn} {n : Nat} {b : Prog} {s s' : St} {f : Flow} {F D : Nat}
    (h : At F D s) (hr : run fns n (guarded .checkFuel b) s = (.ok f, s')) :
    ∃ F' < F, At F' D s' := by
  have ho : (Out.ok f) ≠ .cut := by simp
  obtain ⟨F', hF, hA⟩ := at_after h hr ho rfl
  refine ⟨F', ?_, hA⟩
  cases n with
  | zero => simp [run] at hr
  | succ n =>
    cases n with
    | zero => simp [guarded, run] at hr
    | succ n =>
      cases n with
      | zero => simp [guarded, run] at hr
      | succ n =>
      simp only [guarded, run] at hr
      unfold checkFuel at hr
      rw [h.fuel] at hr
      cases F with
      | zero => simp [sandboxViolation, cleanupAfterError, recordPoisoning] at hr
      | succ F =>
        simp only [] at hr
        set s₁ : St := { s with fuel := some F }.emit .fuelPassed with hs₁
        have h₁ : At F D s₁ := ⟨h.run, rfl, h.levels⟩
        rcases hb : run fns (n + 1) b s₁ with ⟨o, s₂⟩
        rw [hb] at hr
        cases o with
        | cut => simp at hr
        | err e =>
          simp only [] at hr
          exfalso
          have hcl : (cleanupAfterError e (run fns (n + 2) .done) s₂).1 ≠ .ok f := by
            unfold cleanupAfterError
            cases e <;> simp [run]
          rcases hx : cleanupAfterError e (run fns (n + 2) .done) s₂ with ⟨o, s₃⟩
          rw [hx] at hcl
          have hx' : cleanupAfterError e (fun s => (Out.ok Flow.cont, s)) s₂ = (o, s₃) := by
            rw [← hx]; rfl
          have hr2 : (match (o, s₃) with
            | (.cut, s') => ((Out.cut, s') : Out × St)
            | (o, s') => (o, { s' with env := s.env })) = (.ok f, s') := by
            rw [← hx]; exact hr
          cases o with
          | cut => simp at hr2
          | ok g => simp at hr2; exact hcl (by rw [hr2.1])
          | err e' => simp at hr2
        | ok g =>
          obtain ⟨F₂, hF₂, hA₂⟩ := at_after h₁ hb (by simp) rfl
          simp only [finishBlock] at hr
          have : s' = { s₂ with env := s.env } := (Prod.mk.inj hr).2.symm
          have hfe := hA.fuel
          rw [this] at hfe
          have := hA₂.fuel
          simp only [] at hfe
          rw [this] at hfe
          injection hfe with hfe
          omega

theorem enterFrame_at {s s' : St} {args F D : Nat} (h : At F D s) (he : enterFrame args s = .ok s') :
    ∃ D' ≤ D, At F D' s' ∧ (s'.depth < s'.depthLimit → D' < D) ∧ Good s (.ok .cont) s' ∧
      s'.depth = s.depth + 1 := by
  have hg := enterFrame_good h.run args
  rw [he] at hg
  unfold enterFrame ensureRunnable at he
  rw [h.run] at he
  simp only [] at he
  split_ifs at he
  injection he with he
  subst he
  have := h.levels
  refine ⟨s.depthLimit - (s.depth + 1), by omega, ⟨rfl, h.fuel, rfl⟩, ?_, hg, rfl⟩
  intro hl
  simp only [] at hl
  omega

/-- A function that checks the call depth stops at once when the limit is reached. -/
theorem guarded_depth {fns : Nat → Fn} {b : Prog} {s : St} (h : s.depthLimit ≤ s.depth) (n : Nat) :
    ∃ e s', run fns (n + 3) (guarded .checkDepth b) s = (.err e, s') ∧ e.isPoisoning = true := by
  have hc : checkCallDepth s = (.err (sandboxViolation .callDepth s).1, (sandboxViolation .callDepth s).2) := by
    unfold checkCallDepth
    rw [if_pos h]
  refine ⟨.sandbox ⟨.callDepth, [], none⟩,
    { (sandboxViolation .callDepth s).2 with env := s.env }, ?_, rfl⟩
  simp only [guarded, run, hc]
  rfl

/-- The step from knowing that a function's code halts to knowing that its frame does. -/
theorem body_dichotomy {fns : Nat → Fn} {f : Nat} {s s' : St} {args F D r rf : Nat}
    (h : At F D s) (he : enterFrame args s = .ok s') (hf : ChecksDepth fns f ∨ rf < r) :
    (∃ x : Out × St, x.1.isPoisoning = true ∧ Conv (fun n => run fns n (fns f).body s') x) ∨
    (∃ D', At F D' s' ∧ (D' < D ∨ (D' = D ∧ rf < r))) := by
  obtain ⟨D', hD, hA, hlt, _, _⟩ := enterFrame_at h he
  rcases hf with ⟨b, hb⟩ | hf
  · by_cases hl : s'.depth < s'.depthLimit
    · exact .inr ⟨D', hA, .inl (hlt hl)⟩
    · left
      obtain ⟨e, s₂, hr, hp⟩ := guarded_depth (fns := fns) (b := b) (s := s') (by omega) 0
      have hall : ∀ m, run fns (m + 3) (guarded .checkDepth b) s' = run fns 3 (guarded .checkDepth b) s' := by
        intro m
        have hc : checkCallDepth s' = (.err (sandboxViolation .callDepth s').1,
            (sandboxViolation .callDepth s').2) := by
          unfold checkCallDepth
          rw [if_pos (by omega)]
        simp only [guarded, run, hc]
      refine ⟨(.err e, s₂), hp, 3, fun m hm => ?_⟩
      obtain ⟨k, rfl⟩ : ∃ k, m = k + 3 := ⟨m - 3, by omega⟩
      simp only []
      rw [hb, hall k]
      exact hr
  · rcases Nat.lt_or_ge D' D with hd | hd
    · exact .inr ⟨D', hA, .inl hd⟩
    · exact .inr ⟨D', hA, .inr ⟨by omega, hf⟩⟩

/-- What is being proved about a program. -/
def Ends (fns : Nat → Fn) (p : Prog) (s : St) : Prop := Halts fun n => run fns n p s

theorem conv_run {fns : Nat → Fn} {p : Prog} {s : St} {x : Out × St}
    (h : Conv (fun n => run fns n p s) x) : ∃ n, run fns n p s = x := by
  obtain ⟨N, hN⟩ := h
  exact ⟨N, hN N le_rfl⟩

theorem at_conv {fns : Nat → Fn} {p : Prog} {s : St} {x : Out × St} {F D : Nat} (h : At F D s)
    (hx : Conv (fun n => run fns n p s) x) (hc : x.1 ≠ .cut) (ho : x.1.isPoisoning = false) :
    ∃ F' ≤ F, At F' D x.2 := by
  obtain ⟨n, hn⟩ := conv_run hx
  rcases x with ⟨o, s'⟩
  exact at_after h hn hc ho

/-- What a scoped access does once the accessor was called. -/
def yieldedTail (fns : Nat → Fn) (env f : Nat) (body scopes : Prog) (y : Out × St) (n : Nat) : Out × St :=
  match y with
  | (.ok _, s') =>
    afterBody env f (run fns n (fns f).epilogue) (run fns n (fns f).frameDrops)
      (run fns n scopes) (run fns n body s').1 (run fns n body s').2
  | (.err e, s') => ((fun z : Out × St => (z.1.withFrame f, z.2))
      (leaveFrame env (cleanupAfterError e (run fns n (fns f).frameDrops) s')))
  | (.cut, s') => (.cut, s')

theorem ends_main {fns : Nat → Fn} {rank : Nat → Nat} (hI : Instrumented fns rank) :
    ∀ (F D r : Nat) (p : Prog), LoopsChecked p → CallsBelow fns rank r p →
      ∀ s, At F D s → Ends fns p s := by
  intro F
  induction F using Nat.strong_induction_on with
  | _ F ihF =>
  intro D
  induction D using Nat.strong_induction_on with
  | _ D ihD =>
  intro r
  induction r using Nat.strong_induction_on with
  | _ r ihr =>
  intro p
  -- code of a called function
  have callee : ∀ {f : Nat} {q : Prog} {F' D' : Nat} {s : St}, LoopsChecked q →
      CallsBelow fns rank (rank f) q → F' ≤ F → (D' < D ∨ (D' = D ∧ rank f < r)) → At F' D' s →
      Ends fns q s := by
    intro f q F' D' s hl hc hF hD hA
    rcases Nat.lt_or_ge F' F with hlt | hge
    · exact ihF F' hlt D' (rank f) q hl hc s hA
    · obtain rfl : F' = F := by omega
      rcases hD with hD | ⟨rfl, hr⟩
      · exact ihD D' hD (rank f) q hl hc s hA
      · exact ihr (rank f) hr q hl hc s hA
  induction p with
  | act k => intro _ _ s _; exact Halts.shift (fun _ => rfl) (Halts.const _ (by simp))
  | fail k => intro _ _ s _; exact Halts.shift (fun _ => rfl) (Halts.const _ (by simp))
  | checkFuel =>
    intro _ _ s _
    refine Halts.shift (fun _ => rfl) (Halts.const (checkFuel s) ?_)
    unfold checkFuel
    cases s.fuel with
    | none => simp
    | some m => cases m <;> simp
  | checkDepth =>
    intro _ _ s _
    refine Halts.shift (fun _ => rfl) (Halts.const (checkCallDepth s) ?_)
    unfold checkCallDepth
    split_ifs <;> simp
  | alloc =>
    intro _ _ s _
    refine Halts.shift (fun _ => rfl) (Halts.const (allocCell s) ?_)
    unfold allocCell
    split_ifs <;> simp
  | done => intro _ _ s _; exact Halts.shift (fun _ => rfl) (Halts.const _ (by simp))
  | exit t => intro _ _ s _; exact Halts.shift (fun _ => rfl) (Halts.const _ (by simp))
  | seq p q ihp ihq =>
    intro hl hc s hA
    obtain ⟨x, hx, hcx⟩ := ihp hl.1 hc.1 s hA
    refine Halts.shift (fun n => by simp only [run]; rfl) (Halts.bind
      (k := fun y n => match y with
        | (.ok .cont, s) => run fns n q s
        | r => r) hcx ?_)
    rcases x with ⟨o, s'⟩
    cases o with
    | cut => exact absurd rfl hx
    | err e => exact Halts.const _ hx
    | ok f =>
      cases f with
      | transfer t => exact Halts.const _ hx
      | cont =>
        obtain ⟨F', hF', hA'⟩ := at_conv hA hcx hx rfl
        rcases Nat.lt_or_ge F' F with hlt | hge
        · exact ihF F' hlt D r q hl.2 hc.2 s' hA'
        · obtain rfl : F' = F := by omega
          exact ihq hl.2 hc.2 s' hA'
  | choose p q ihp ihq =>
    intro hl hc s hA
    have hA' : At F D { s with choices := fun i => s.choices (i + 1) } := ⟨hA.1, hA.2, hA.3⟩
    cases hch : s.choices 0 with
    | true => exact Halts.shift (fun n => by simp only [run, hch, if_true]) (ihp hl.1 hc.1 _ hA')
    | false =>
      exact Halts.shift (fun n => by simp only [run, hch, Bool.false_eq_true, if_false])
        (ihq hl.2 hc.2 _ hA')
  | loop l p ihp =>
    intro hl hc s hA
    obtain ⟨⟨b, hb⟩, hlp⟩ := hl
    obtain ⟨x, hx, hcx⟩ := ihp hlp hc s hA
    refine Halts.shift (fun n => by simp only [run]; rfl) (Halts.bind
      (k := fun y n => match y with
        | (.ok f, s) =>
          match loopStep l f with
          | some f => (.ok f, s)
          | none => run fns n (.loop l p) s
        | r => r) hcx ?_)
    rcases x with ⟨o, s'⟩
    cases o with
    | cut => exact absurd rfl hx
    | err e => exact Halts.const _ hx
    | ok f =>
      simp only []
      cases hls : loopStep l f with
      | some f' => exact Halts.const _ (by simp)
      | none =>
        obtain ⟨n, hn⟩ := conv_run hcx
        have hn' := hn
        rw [hb] at hn'
        obtain ⟨F', hF', hA'⟩ := guarded_fuel hA hn'
        exact ihF F' hF' D r (.loop l p) ⟨⟨b, hb⟩, hlp⟩ hc s' hA'
  | block p d ihp ihd =>
    intro hl hc s hA
    obtain ⟨x, hx, hcx⟩ := ihp hl.1 hc.1 s hA
    have again : ∀ {F'} {s'}, F' ≤ F → At F' D s' → Ends fns d s' := by
      intro F' s' hF' hA'
      rcases Nat.lt_or_ge F' F with hlt | hge
      · exact ihF F' hlt D r d hl.2 hc.2 s' hA'
      · obtain rfl : F' = F := by omega
        exact ihd hl.2 hc.2 s' hA'
    refine Halts.shift (fun n => by simp only [run]; rfl) (Halts.bind
      (k := fun y n => match y with
        | (.ok f, s') => finishBlock s.env f (run fns n d s')
        | (.err e, s') =>
          match cleanupAfterError e (run fns n d) s' with
          | (.cut, s') => (.cut, s')
          | (o, s') => (o, { s' with env := s.env })
        | r => r) hcx ?_)
    rcases x with ⟨o, s'⟩
    cases o with
    | cut => exact absurd rfl hx
    | ok f =>
      obtain ⟨F', hF', hA'⟩ := at_conv hA hcx hx rfl
      exact Halts.map (finishBlock s.env f) (again hF' hA') (fun x h => finishBlock_ne_cut h)
    | err e =>
      have hcl : Halts fun n => cleanupAfterError e (run fns n d) s' := by
        refine cleanup_halts fun hp => ?_
        obtain ⟨F', hF', hA'⟩ := at_conv hA hcx hx hp
        exact again hF' hA'
      refine Halts.map (fun y => match y with
          | (.cut, s') => (.cut, s')
          | (o, s') => (o, { s' with env := s.env })) hcl ?_
      rintro ⟨o, s''⟩ h
      cases o <;> simp_all
  | call f args =>
    intro hl hc s hA
    cases he : enterFrame args s with
    | error es =>
      exact Halts.shift (fun n => by simp only [run, he]; rfl) (Halts.const _ (by simp [Out.withFrame]))
    | ok s' =>
      refine Halts.shift (h := fun n => (fun z : Out × St => (z.1.toValue.withFrame f, z.2))
        (leaveFrame s.env (underFrame (run fns n (fns f).body s') (run fns n (fns f).frameDrops))))
        (fun n => by simp only [run, he]) ?_
      refine Halts.map (fun z : Out × St => (z.1.toValue.withFrame f, z.2)) ?_
        (fun x h => withFrame_ne_cut (toValue_ne_cut h) f)
      refine Halts.map (leaveFrame s.env) ?_ (fun x h => leaveFrame_ne_cut h)
      rcases body_dichotomy (rf := rank f) hA he hc with ⟨x, hp, hcx⟩ | ⟨D', hA', hD'⟩
      · refine Halts.bind (k := fun y n => underFrame y (run fns n (fns f).frameDrops)) hcx ?_
        refine underFrame_halts ?_ ?_
        · intro h; rw [h] at hp; cases hp
        · intro e he' hne
          rw [he'] at hp
          simp [Out.isPoisoning, hne] at hp
      · obtain ⟨x, hx, hcx⟩ := callee (hI.loops f).1 (hI.calls f).1 le_rfl hD' hA'
        refine Halts.bind (k := fun y n => underFrame y (run fns n (fns f).frameDrops)) hcx ?_
        refine underFrame_halts hx ?_
        intro e he' hne
        obtain ⟨F₂, hF₂, hA₂⟩ := at_conv hA' hcx hx (by rw [he']; exact hne)
        exact callee (hI.loops f).2.1 (hI.calls f).2.1 hF₂ hD' hA₂
  | withYielded f args body scopes ihb ihs =>
    intro hl hc s hA
    cases he : enterFrame args s with
    | error es =>
      exact Halts.shift (fun n => by simp only [run, he]; rfl) (Halts.const _ (by simp [Out.withFrame]))
    | ok s' =>
      obtain ⟨D₀, hD₀, hA₀, _, hg₀, hdep₀⟩ := enterFrame_at hA he
      refine Halts.shift (h := fun n => yieldedTail fns s.env f body scopes
          (run fns n (fns f).body s') n)
        (fun n => by
          simp only [run, he]
          rcases run fns n (fns f).body s' with ⟨o, s₁⟩
          cases o <;> rfl) ?_
      -- code run in the caller's frame once the accessor is left
      have outer : ∀ {F'} {s₂}, F' ≤ F → At F' D s₂ → Ends fns scopes s₂ := by
        intro F' s₂ hF' hA'
        rcases Nat.lt_or_ge F' F with hlt | hge
        · exact ihF F' hlt D r scopes hl.2 hc.2.2 s₂ hA'
        · obtain rfl : F' = F := by omega
          exact ihs hl.2 hc.2.2 s₂ hA'
      rcases body_dichotomy (rf := rank f) hA he hc.1 with ⟨x, hp, hcx⟩ | ⟨D', hA', hD'⟩
      · refine Halts.bind (k := yieldedTail fns s.env f body scopes) hcx ?_
        rcases x with ⟨o, s₁⟩
        cases o with
        | cut => cases hp
        | ok _ => cases hp
        | err e =>
          refine Halts.map (fun z : Out × St => (z.1.withFrame f, z.2)) ?_
            (fun x h => withFrame_ne_cut h f)
          refine Halts.map (leaveFrame s.env) ?_ (fun x h => leaveFrame_ne_cut h)
          refine cleanup_halts fun hne => ?_
          simp [Out.isPoisoning, hne] at hp
      · have hDD : D' = D₀ := by rw [← hA'.levels, ← hA₀.levels]
        obtain ⟨x, hx, hcx⟩ := callee (hI.loops f).1 (hI.calls f).1 le_rfl hD' hA'
        refine Halts.bind (k := yieldedTail fns s.env f body scopes) hcx ?_
        rcases x with ⟨o, s₁⟩
        cases o with
        | cut => exact absurd rfl hx
        | err e =>
          refine Halts.map (fun z : Out × St => (z.1.withFrame f, z.2)) ?_
            (fun x h => withFrame_ne_cut h f)
          refine Halts.map (leaveFrame s.env) ?_ (fun x h => leaveFrame_ne_cut h)
          refine cleanup_halts fun hne => ?_
          obtain ⟨F₂, hF₂, hA₂⟩ := at_conv hA' hcx hx hne
          exact callee (hI.loops f).2.1 (hI.calls f).2.1 hF₂ hD' hA₂
        | ok fl =>
          obtain ⟨F₁, hF₁, hA₁⟩ := at_conv hA' hcx hx rfl
          -- the body of the scoped access
          have hbody : Ends fns body s₁ := by
            rcases Nat.lt_or_ge F₁ F with hlt | hge
            · exact ihF F₁ hlt D' r body hl.1 hc.2.1 s₁ hA₁
            · obtain rfl : F₁ = F := by omega
              rcases Nat.lt_or_ge D' D with hd | hd
              · exact ihD D' hd r body hl.1 hc.2.1 s₁ hA₁
              · obtain rfl : D' = D := by omega
                exact ihb hl.1 hc.2.1 s₁ hA₁
          obtain ⟨y, hy, hcy⟩ := hbody
          refine Halts.bind (g := fun n => run fns n body s₁)
            (k := fun (y : Out × St) n => afterBody s.env f (run fns n (fns f).epilogue)
              (run fns n (fns f).frameDrops) (run fns n scopes) y.1 y.2) hcy ?_
          rcases y with ⟨b, s₂⟩
          have hb : b ≠ .cut := hy
          -- depth facts
          obtain ⟨n₁, hn₁⟩ := conv_run hcx
          obtain ⟨n₂, hn₂⟩ := conv_run hcy
          have hdep₁ : s₁.depth = s.depth + 1 := by
            have := run_depth fns n₁ (fns f).body s'
            rw [hn₁] at this
            rw [this (by simp), hdep₀]
          have hdep₂ : s₂.depth = s.depth + 1 := by
            have := run_depth fns n₂ body s₁
            rw [hn₂] at this
            rw [this hb, hdep₁]
          have hg₂ : Good s b s₂ := by
            have g1 := run_good fns n₁ (fns f).body s' hA'.run
            rw [hn₁] at g1
            have g2 := run_good fns n₂ body s₁ hA₁.run
            rw [hn₂] at g2
            exact (hg₀.trans g1).trans g2
          -- resuming or abandoning the accessor
          have hresume : Halts fun n => resumeOrAbandon f (run fns n (fns f).epilogue)
              (run fns n (fns f).frameDrops) b.isPoisoning s₂ := by
            by_cases hp : b.isPoisoning = true
            · simp only [resumeOrAbandon, hp, if_true]
              exact Halts.const _ (by simp)
            · have hp : b.isPoisoning = false := by simpa using hp
              obtain ⟨F₂, hF₂, hA₂⟩ := at_conv hA₁ hcy hb hp
              simp only [resumeOrAbandon, hp, Bool.false_eq_true, if_false]
              refine Halts.map (fun z : Out × St => (z.1.withFrame f, z.2))
                (g := fun n => leaveFrame s₂.env (underFrame (run fns n (fns f).epilogue s₂)
                  (run fns n (fns f).frameDrops))) ?_ (fun x h => withFrame_ne_cut h f)
              refine Halts.map (leaveFrame s₂.env) ?_ (fun x h => leaveFrame_ne_cut h)
              obtain ⟨z, hz, hcz⟩ := callee (hI.loops f).2.2 (hI.calls f).2.2 (hF₂.trans hF₁) hD' hA₂
              refine Halts.bind (k := fun y n => underFrame y (run fns n (fns f).frameDrops)) hcz ?_
              refine underFrame_halts hz ?_
              intro e he' hne
              obtain ⟨F₃, hF₃, hA₃⟩ := at_conv hA₂ hcz hz (by rw [he']; exact hne)
              exact callee (hI.loops f).2.1 (hI.calls f).2.1 (hF₃.trans (hF₂.trans hF₁)) hD' hA₃
          obtain ⟨z, hz, hcz⟩ := hresume
          -- the state after it, when the executor is still running
          have hz_at : b.isPoisoning = false → z.1.isPoisoning = false → ∃ F' ≤ F, At F' D z.2 := by
            intro hp hzp
            obtain ⟨F₂, hF₂, hA₂⟩ := at_conv hA₁ hcy hb hp
            obtain ⟨N, hN⟩ := hcz
            have hzN := hN N le_rfl
            simp only [hp] at hzN
            have hgz := resume_good f (run_good fns N (fns f).epilogue) (run_good fns N (fns f).frameDrops)
              hA₂.run
            rw [hzN] at hgz
            have hdz : z.2.depth = s.depth := by
              have hd : DepthOk s.depth (resumeOrAbandon f (run fns N (fns f).epilogue)
                  (run fns N (fns f).frameDrops) false s₂) := by
                unfold resumeOrAbandon
                simp only [Bool.false_eq_true, if_false]
                refine withFrame_depth (r := leaveFrame s₂.env
                  (underFrame (run fns N (fns f).epilogue s₂) (run fns N (fns f).frameDrops)))
                  (leaveFrame_depth ?_)
                refine underFrame_depth ?_ (run_depth fns N _)
                rw [← hdep₂]; exact run_depth fns N _ s₂
              rw [hzN] at hd
              exact hd hz
            have hlim : z.2.depthLimit = s.depthLimit := by
              rw [hgz.depthLimit, hg₂.depthLimit]
            -- `hgz` only gives what happened since `s₂`; redo the fuel count from there
            obtain ⟨g1, g2, ⟨t, ht, htp, htf, htu⟩, g4⟩ := hgz
            rw [hA₂.fuel] at htu
            obtain ⟨m, hm, hm', _⟩ := htu
            refine ⟨m, by omega, ?_, hm, by rw [hlim, hdz]; exact hA.levels⟩
            cases hzo : z.1 with
            | cut => exact absurd hzo hz
            | ok _ => rw [hzo] at g4; exact g4
            | err e =>
              rw [hzo] at g4 hzp
              cases e with
              | source a => simpa [StateOk, RErr.isPoisoning] using g4
              | sandbox v => cases hzp
              | during a c => cases hzp
          -- dropping the argument temporaries
          have hdrop : Halts fun n => dropScopes (run fns n scopes) b z := by
            rcases z with ⟨o, s₃⟩
            cases o with
            | cut => exact absurd rfl hz
            | ok fl' =>
              by_cases hp : b.isPoisoning = true
              · simp only [dropScopes, hp, if_true]
                exact Halts.const _ (by simp)
              · have hp : b.isPoisoning = false := by simpa using hp
                obtain ⟨F', hF', hA₃⟩ := hz_at hp rfl
                simp only [dropScopes, hp, Bool.false_eq_true, if_false]
                refine Halts.map (fun w : Out × St => match w with
                  | (.ok _, s) => (.ok fl', s)
                  | r => r) (outer hF' hA₃) ?_
                rintro ⟨o, s₄⟩ h
                cases o <;> simp_all
            | err e =>
              cases b with
              | cut => exact absurd rfl hb
              | err _ => exact Halts.const _ (by simp [dropScopes])
              | ok fl'' =>
                by_cases hp : e.isPoisoning = true
                · simp only [dropScopes, hp, if_true]
                  exact Halts.const _ (by simp)
                · have hp : e.isPoisoning = false := by simpa using hp
                  simp only [dropScopes, hp, Bool.false_eq_true, if_false]
                  refine cleanup_halts fun _ => ?_
                  obtain ⟨F', hF', hA₃⟩ := hz_at rfl hp
                  exact outer hF' hA₃
          have hdrop' : Halts fun n => dropScopes (run fns n scopes) b
              (resumeOrAbandon f (run fns n (fns f).epilogue) (run fns n (fns f).frameDrops)
                b.isPoisoning s₂) :=
            Halts.bind (k := fun y n => dropScopes (run fns n scopes) b y) hcz hdrop
          have hfin := Halts.map (fun w : Out × St => match w with
            | (.cut, s) => (.cut, s)
            | (er, s') => combineYielded b er { s' with env := s.env }) hdrop' (by
              rintro ⟨o, s₄⟩ h
              cases o with
              | cut => exact absurd rfl h
              | ok _ => exact combineYielded_ne_cut hb (by simp)
              | err _ => exact combineYielded_ne_cut hb (by simp))
          cases b with
          | cut => exact absurd rfl hb
          | ok _ => exact hfin
          | err _ => exact hfin

end Ferlium.Exec
