import Verif.Proofs.ExecTerm

/-!
Properties C29, C30 and C51: resource limits, poisoning and error reporting of the executor.

Specification vocabulary (independent of the executor's own bookkeeping): what an observer sees is
the list of events of an execution.  `passes` counts the fuel checks the execution got through,
`faults` lists the raised source failures and sandbox violations in order, and `reported` reads off an
error which faults it mentions.
-/

namespace Ferlium.Exec

/-- An executor as the host creates it (`with_limits`, src/eval.rs 226-233, 380-402). -/
def fresh (fuel : Option Nat) (depthLimit envLimit : Nat) (choices : Nat → Bool) : St :=
  { fuel, depth := 0, depthLimit, env := 0, envLimit, poison := none, choices, trace := [] }

/-- The faults an error mentions, oldest first. -/
def reported : RErr → List Ev
  | .source f => [.raise f.kind]
  | .sandbox v => (v.interrupted.map fun a => Ev.raise a.kind).toList ++ [.violate v.kind]
  | .during a b => [.raise a.kind, .raise b.kind]

theorem reported_eq {e : RErr} {l : List Ev} (h : FaultsOk (.err e) l) :
    reported e = l.drop (l.length - 2) := by
  cases e with
  | source f => simp only [FaultsOk] at h; subst h; rfl
  | during a b =>
    obtain ⟨pre, rfl⟩ := h
    simp [reported]
  | sandbox v =>
    obtain ⟨k, fr, i⟩ := v
    cases i with
    | none => simp only [FaultsOk] at h; subst h; rfl
    | some a =>
      obtain ⟨pre, rfl⟩ := h
      simp [reported]

/-- The state between two entries: running or poisoned, with everything so far accounted for. -/
structure Between (n : Option Nat) (s : St) : Prop where
  clean : ∀ e ∈ s.trace, e.poisoned = false
  fuel : FuelOk n s.fuel s.trace
  poison : ∀ e, s.poison = some e → e.isPoisoning = true

theorem stateOk_poison {o : Out} {p : Option RErr} (hc : o ≠ .cut) (h : StateOk o p) {e : RErr}
    (hp : p = some e) : e.isPoisoning = true := by
  subst hp
  cases o with
  | cut => exact absurd rfl hc
  | ok f => cases h
  | err e' =>
    unfold StateOk at h
    simp only [] at h
    split_ifs at h with hpo
    simp only [Option.map_some, Option.some.injEq] at h
    rw [← isPoisoning_bare, h, isPoisoning_bare]
    exact hpo

theorem enter_between {fns : Nat → Fn} {n : Option Nat} {steps f : Nat} {s : St} (h : Between n s) :
    (∀ e ∈ (enter fns steps f s).2.trace, e.poisoned = false) ∧
    FuelOk n (enter fns steps f s).2.fuel (enter fns steps f s).2.trace ∧
    ((enter fns steps f s).1 ≠ .cut → Between n (enter fns steps f s).2) := by
  cases hp : s.poison with
  | some e =>
    cases steps with
    | zero => simp only [enter, run]; exact ⟨h.clean, h.fuel, fun h' => absurd rfl h'⟩
    | succ steps =>
      rw [enter_poisoned fns steps f s e hp]
      exact ⟨h.clean, h.fuel, fun _ => h⟩
  | none =>
    have hg := run_good fns steps (.call f 0) s hp
    change Good s (enter fns steps f s).1 (enter fns steps f s).2 at hg
    obtain ⟨g1, g2, ⟨t, ht, hcl, hf, hu⟩, g4⟩ := hg
    have c : ∀ e ∈ (enter fns steps f s).2.trace, e.poisoned = false := by
      intro e he
      rw [ht] at he
      rcases List.mem_append.mp he with he | he
      · exact h.clean e he
      · exact hcl e he
    have u : FuelOk n (enter fns steps f s).2.fuel (enter fns steps f s).2.trace := by
      rw [ht]; exact h.fuel.trans hu
    exact ⟨c, u, fun hne => ⟨c, u, fun e he => stateOk_poison hne g4 he⟩⟩

theorem entries_between {fns : Nat → Fn} {n : Option Nat} {steps : Nat} :
    ∀ (fs : List Nat) (s : St), Between n s →
      (∀ e ∈ (entries fns steps fs s).2.trace, e.poisoned = false) ∧
      FuelOk n (entries fns steps fs s).2.fuel (entries fns steps fs s).2.trace := by
  intro fs
  induction fs with
  | nil => intro s h; exact ⟨h.clean, h.fuel⟩
  | cons f fs ih =>
    intro s h
    obtain ⟨h1, h2, h3⟩ := enter_between (fns := fns) (steps := steps) (f := f) h
    simp only [entries]
    rcases he : enter fns steps f s with ⟨o, s'⟩
    rw [he] at h1 h2 h3
    cases o with
    | cut => exact ⟨h1, h2⟩
    | ok _ => exact ih s' (h3 (by simp))
    | err _ => exact ih s' (h3 (by simp))

theorem fresh_between (fuel : Option Nat) (d e : Nat) (c : Nat → Bool) :
    Between fuel (fresh fuel d e c) :=
  ⟨by simp [fresh], FuelOk.refl _, by simp [fresh]⟩

/-- **C29** With a fuel limit of `n`, any sequence of entries, observed for any number of steps, passes
at most `n` fuel checks; and if a fuel violation happened then exactly `n` checks had been passed. -/
theorem C29_fuel_bound (fns : Nat → Fn) (n d e : Nat) (c : Nat → Bool) (steps : Nat) (fs : List Nat) :
    let t := (entries fns steps fs (fresh (some n) d e c)).2.trace
    passes t ≤ n ∧ (outOfFuel t → passes t = n) := by
  obtain ⟨m, _, h2, h3⟩ := (entries_between (fns := fns) (steps := steps) fs _
    (fresh_between (some n) d e c)).2
  exact ⟨by omega, fun h => by have := h3 h; omega⟩

/-- **C29** Without a fuel limit no fuel violation ever happens. -/
theorem C29_no_limit_no_violation (fns : Nat → Fn) (d e : Nat) (c : Nat → Bool) (steps : Nat)
    (fs : List Nat) :
    ¬ outOfFuel (entries fns steps fs (fresh none d e c)).2.trace :=
  ((entries_between (fns := fns) (steps := steps) fs _ (fresh_between none d e c)).2).2.2

/-- **C29** No guest code runs in a poisoned executor: every event of any sequence of entries
happened while the executor was not poisoned. -/
theorem C29_nothing_runs_when_poisoned (fns : Nat → Fn) (fuel : Option Nat) (d e : Nat) (c : Nat → Bool)
    (steps : Nat) (fs : List Nat) :
    ∀ ev ∈ (entries fns steps fs (fresh fuel d e c)).2.trace, ev.poisoned = false :=
  (entries_between (fns := fns) (steps := steps) fs _ (fresh_between fuel d e c)).1

theorem entries_poisoned (fns : Nat → Fn) (steps : Nat) (e : RErr) :
    ∀ (fs : List Nat) (s : St), s.poison = some e →
      entries fns (steps + 1) fs s = (fs.map fun f => .err (e.withFrame f), s) := by
  intro fs
  induction fs with
  | nil => intro s _; rfl
  | cons f fs ih =>
    intro s h
    simp only [entries, enter_poisoned fns steps f s e h, ih s h, List.map_cons]

/-- **C29** Once an entry ended in a sandbox violation or a failure during cleanup, every later entry
is refused with the same error (the backtrace aside), nothing is executed and the executor does not
change. -/
theorem C29_refused_afterwards (fns : Nat → Fn) (steps steps' f : Nat) (s s' : St) (err : RErr)
    (hs : s.poison = none) (h : enter fns steps f s = (.err err, s')) (hp : err.isPoisoning = true)
    (fs : List Nat) :
    (entries fns (steps' + 1) fs s').2 = s' ∧ (entries fns (steps' + 1) fs s').1.length = fs.length ∧
    ∀ o ∈ (entries fns (steps' + 1) fs s').1, ∃ e, o = .err e ∧ e.bare = err.bare := by
  have hg := run_good fns steps (.call f 0) s hs
  change Good s (enter fns steps f s).1 (enter fns steps f s).2 at hg
  rw [h] at hg
  have hst := hg.state
  simp only [StateOk, hp, if_true] at hst
  cases hpo : s'.poison with
  | none => rw [hpo] at hst; cases hst
  | some e =>
    rw [hpo] at hst
    simp only [Option.map_some, Option.some.injEq] at hst
    rw [entries_poisoned fns steps' e fs s' hpo]
    refine ⟨rfl, by simp, ?_⟩
    intro o ho
    simp only [List.mem_map] at ho
    obtain ⟨g, _, rfl⟩ := ho
    exact ⟨_, rfl, by rw [bare_withFrame, hst]⟩

/-- **C30** A run that ends well had no fault: no failure is ever swallowed. -/
theorem C30_no_failure_swallowed (fns : Nat → Fn) (steps : Nat) (p : Prog) (s s' : St) (f : Flow)
    (hs : s.poison = none) (h : run fns steps p s = (.ok f, s')) :
    ∃ t, s'.trace = s.trace ++ t ∧ faults t = [] := by
  have hg := run_good fns steps p s hs
  rw [h] at hg
  obtain ⟨t, ht, _, hf, _⟩ := hg.trace
  exact ⟨t, ht, hf⟩

/-- **C30** A run that ends with an error reports exactly the last two faults that happened (or the
only one), whatever the nesting of cleanups and epilogues. -/
theorem C30_last_two_faults_reported (fns : Nat → Fn) (steps : Nat) (p : Prog) (s s' : St) (e : RErr)
    (hs : s.poison = none) (h : run fns steps p s = (.err e, s')) :
    ∃ t, s'.trace = s.trace ++ t ∧ faults t ≠ [] ∧
      reported e = (faults t).drop ((faults t).length - 2) := by
  have hg := run_good fns steps p s hs
  rw [h] at hg
  obtain ⟨t, ht, _, hf, _⟩ := hg.trace
  have hr := reported_eq hf
  refine ⟨t, ht, ?_, hr⟩
  intro h0
  rw [h0] at hr
  cases e <;> simp [reported] at hr

/-- **C30** (partial) The initial failure is carried by the final error as long as at most two faults
happened.  Missing: three or more faults, where the code loses the first one, see
`C30_initial_failure_lost_violated`. -/
theorem C30_initial_failure_carried_partial (fns : Nat → Fn) (steps : Nat) (p : Prog) (s s' : St)
    (e : RErr) (hs : s.poison = none) (h : run fns steps p s = (.err e, s')) :
    ∃ t, s'.trace = s.trace ++ t ∧ ((faults t).length ≤ 2 → reported e = faults t) := by
  obtain ⟨t, ht, _, hr⟩ := C30_last_two_faults_reported fns steps p s s' e hs h
  refine ⟨t, ht, fun hl => ?_⟩
  rw [hr, Nat.sub_eq_zero_of_le hl, List.drop_zero]

/-- A program with a failure (1) in a block whose cleanup fails (2) in a block whose own cleanup
fails (3). -/
def nestedFailures : Prog := .block (.fail 1) (.block (.fail 2) (.fail 3))

/-- The same where the innermost cleanup runs out of fuel instead. -/
def nestedViolation : Prog := .block (.fail 1) (.block (.fail 2) .checkFuel)

/-- **C30** (violated) With three nested faults the initial failure is lost: the final error only
mentions the second and third one.  This happens both for a failure during cleanup and for a sandbox
violation. -/
theorem C30_initial_failure_lost_violated (fns : Nat → Fn) (d l : Nat) (c : Nat → Bool) :
    (run fns 4 nestedFailures (fresh none d l c)).1 = .err (.during ⟨2, []⟩ ⟨3, []⟩) ∧
    faults (run fns 4 nestedFailures (fresh none d l c)).2.trace = [.raise 1, .raise 2, .raise 3] ∧
    (run fns 4 nestedViolation (fresh (some 0) d l c)).1 =
      .err (.sandbox ⟨.fuelExhausted, [], some ⟨2, []⟩⟩) ∧
    faults (run fns 4 nestedViolation (fresh (some 0) d l c)).2.trace =
      [.raise 1, .raise 2, .violate .fuelExhausted] := by
  refine ⟨rfl, rfl, rfl, rfl⟩

/-- **C30** Poisoning is permanent and names the error that was returned: after a run that ended with
a poisoning error the executor is poisoned with that error (the backtrace aside), after any other end
it is still running. -/
theorem C30_poisoned_iff_poisoning_error (fns : Nat → Fn) (steps : Nat) (p : Prog) (s s' : St) (o : Out)
    (hs : s.poison = none) (h : run fns steps p s = (o, s')) (ho : o ≠ .cut) :
    (∀ e, o = .err e → e.isPoisoning = true → s'.poison.map RErr.bare = some e.bare) ∧
    ((∀ e, o = .err e → e.isPoisoning = false) → s'.poison = none) := by
  have hg := run_good fns steps p s hs
  rw [h] at hg
  have hst := hg.state
  constructor
  · rintro e rfl hp
    simpa [StateOk, hp] using hst
  · intro hall
    cases o with
    | cut => exact absurd rfl ho
    | ok f => exact hst
    | err e =>
      have := hall e rfl
      simpa [StateOk, this] using hst

/-- **C51** With a fuel limit, every execution of a program whose loops check fuel and whose
recursive functions check the call depth ends: from some number of steps on the outcome is fixed and
is not a mere cut of the observation. -/
theorem C51_sandboxed_execution_ends (fns : Nat → Fn) (rank : Nat → Nat) (hI : Instrumented fns rank)
    (f n : Nat) (s : St) (hf : s.fuel = some n) :
    ∃ o s', o ≠ .cut ∧ ∃ N, ∀ steps, N ≤ steps → enter fns steps f s = (o, s') := by
  cases hp : s.poison with
  | some e =>
    refine ⟨.err (e.withFrame f), s, by simp, 1, fun m hm => ?_⟩
    obtain ⟨k, rfl⟩ : ∃ k, m = k + 1 := ⟨m - 1, by omega⟩
    exact enter_poisoned fns k f s e hp
  | none =>
    obtain ⟨x, hx, hc⟩ := ends_main hI n (s.depthLimit - s.depth) (rank f + 1) (.call f 0) trivial
      (.inr (Nat.lt_succ_self _)) s ⟨hp, hf, rfl⟩
    exact ⟨x.1, x.2, hx, hc⟩

/-! ### The hypotheses are satisfiable -/

/-- A function table with an endless loop (0), unbounded recursion with a failing cleanup (1), and a
scoped access (2). -/
def demoFns : Nat → Fn
  | 0 => ⟨.loop 0 (guarded .checkFuel (.act 7)), .done, .done⟩
  | 1 => ⟨guarded .checkDepth (.call 1 0), .act 9, .done⟩
  | 2 => ⟨.act 1, .done, .fail 5⟩
  | _ => ⟨.withYielded 2 0 (.block (.fail 4) (.act 3)) (.act 6), .act 8, .done⟩

def demoRank : Nat → Nat
  | 0 => 0
  | 1 => 0
  | 2 => 0
  | _ => 1

/-- The table satisfies the hypothesis of C51. -/
example : Instrumented demoFns demoRank := by
  constructor
  · intro f
    rcases f with _ | _ | _ | f
    · exact ⟨⟨⟨_, rfl⟩, ⟨⟨trivial, trivial⟩, trivial⟩⟩, trivial, trivial⟩
    · exact ⟨⟨⟨trivial, trivial⟩, trivial⟩, trivial, trivial⟩
    · exact ⟨trivial, trivial, trivial⟩
    · exact ⟨⟨⟨trivial, trivial⟩, trivial⟩, trivial, trivial⟩
  · intro f
    rcases f with _ | _ | _ | f
    · exact ⟨⟨⟨trivial, trivial⟩, trivial⟩, trivial, trivial⟩
    · exact ⟨⟨⟨trivial, .inl ⟨_, rfl⟩⟩, trivial⟩, trivial, trivial⟩
    · exact ⟨trivial, trivial, trivial⟩
    · exact ⟨⟨.inr (by show 0 < 1; omega), ⟨trivial, trivial⟩, trivial⟩, trivial, trivial⟩

/-- The endless loop is stopped by fuel, after two iterations, and the second entry is refused. -/
example : (entries demoFns 9 [0, 3] (fresh (some 2) 5 5 (fun _ => true))).1 =
    [.err (.sandbox ⟨.fuelExhausted, [0], none⟩), .err (.sandbox ⟨.fuelExhausted, [3], none⟩)] := by
  rfl

/-- The recursion is stopped by the depth limit. -/
example : (enter demoFns 30 1 (fresh (some 2) 3 5 (fun _ => true))).1 =
    .err (.sandbox ⟨.callDepth, [1, 1, 1], none⟩) := by rfl

/-- Body failure 4, cleanup action 3, epilogue failure 5: both failures are reported. -/
example : (enter demoFns 30 3 (fresh (some 2) 3 5 (fun _ => true))).1 =
    .err (.during ⟨4, [3]⟩ ⟨5, [2, 3]⟩) := by rfl

end Ferlium.Exec
