import Verif.Model.Exec
import Mathlib.Tactic

/-! What one run of guest code does to the execution domain: the invariant of `run`. -/

namespace Ferlium.Exec

/-- Is the event a fault, that is a raised source failure or a sandbox violation? -/
def Ev.isFault : Ev → Bool
  | .raise _ => true
  | .violate _ => true
  | _ => false

/-- The faults of a trace, in the order in which they happened. -/
def faults (t : List Event) : List Ev := (t.map (·.what)).filter Ev.isFault

/-- The number of fuel checks passed in a trace. -/
def passes (t : List Event) : Nat := (t.map (·.what)).count .fuelPassed

@[simp] theorem faults_nil : faults [] = [] := rfl
@[simp] theorem passes_nil : passes [] = 0 := rfl
theorem faults_append (t u : List Event) : faults (t ++ u) = faults t ++ faults u := by
  simp [faults]
theorem passes_append (t u : List Event) : passes (t ++ u) = passes t + passes u := by
  simp [passes]

/-- The error without its backtraces. -/
def SrcFail.bare (f : SrcFail) : SrcFail := { f with frames := [] }

/-- The error without its backtraces. -/
def RErr.bare : RErr → RErr
  | .source f => .source f.bare
  | .sandbox v => .sandbox { v with frames := [], interrupted := v.interrupted.map SrcFail.bare }
  | .during a b => .during a.bare b.bare

theorem bare_withFrame (e : RErr) (f : Nat) : (e.withFrame f).bare = e.bare := by
  cases e <;> rfl

theorem isPoisoning_bare (e : RErr) : e.bare.isPoisoning = e.isPoisoning := by cases e <;> rfl

/-- The faults an outcome reports, compared with the faults that happened. -/
def FaultsOk : Out → List Ev → Prop
  | .ok _, l => l = []
  | .err (.source f), l => l = [.raise f.kind]
  | .err (.sandbox ⟨k, _, none⟩), l => l = [.violate k]
  | .err (.sandbox ⟨k, _, some a⟩), l => ∃ pre, l = pre ++ [.raise a.kind, .violate k]
  | .err (.during a b), l => ∃ pre, l = pre ++ [.raise a.kind, .raise b.kind]
  | .cut, _ => True

/-- The state after an outcome: running after a result or a source failure, poisoned with the same
error otherwise. -/
def StateOk (o : Out) (p : Option RErr) : Prop :=
  match o with
  | .ok _ => p = none
  | .err e => if e.isPoisoning then p.map RErr.bare = some e.bare else p = none
  | .cut => True

/-- Does the trace contain a fuel violation? -/
def outOfFuel (t : List Event) : Prop := Ev.violate .fuelExhausted ∈ t.map (·.what)

/-- Fuel accounting between two states with trace `t` in between. -/
def FuelOk (a b : Option Nat) (t : List Event) : Prop :=
  match a with
  | none => b = none ∧ passes t = 0 ∧ ¬ outOfFuel t
  | some n => ∃ m, b = some m ∧ m + passes t = n ∧ (outOfFuel t → m = 0)

theorem FuelOk.refl (a : Option Nat) : FuelOk a a [] := by
  cases a <;> simp [FuelOk, outOfFuel]

theorem outOfFuel_append (t u : List Event) : outOfFuel (t ++ u) ↔ outOfFuel t ∨ outOfFuel u := by
  simp [outOfFuel, or_and_right, exists_or]

theorem FuelOk.trans {a b c : Option Nat} {t u : List Event} (h : FuelOk a b t) (h' : FuelOk b c u) :
    FuelOk a c (t ++ u) := by
  cases a with
  | none =>
    obtain ⟨rfl, h2, h3⟩ := h
    obtain ⟨rfl, h5, h6⟩ := h'
    refine ⟨rfl, by rw [passes_append]; omega, ?_⟩
    rw [outOfFuel_append]; tauto
  | some n =>
    obtain ⟨m, rfl, h2, h3⟩ := h
    obtain ⟨k, rfl, h5, h6⟩ := h'
    refine ⟨k, rfl, by rw [passes_append]; omega, ?_⟩
    rw [outOfFuel_append]
    rintro (h | h)
    · have := h3 h; omega
    · exact h6 h

/-- The invariant of a run from a running state. -/
structure Good (s : St) (o : Out) (s' : St) : Prop where
  depthLimit : s'.depthLimit = s.depthLimit
  envLimit : s'.envLimit = s.envLimit
  trace : ∃ t, s'.trace = s.trace ++ t ∧ (∀ e ∈ t, e.poisoned = false) ∧ FaultsOk o (faults t) ∧
    FuelOk s.fuel s'.fuel t
  state : StateOk o s'.poison

/-- The bookkeeping fields are unchanged. -/
def Same (s s' : St) : Prop :=
  s'.fuel = s.fuel ∧ s'.depthLimit = s.depthLimit ∧ s'.envLimit = s.envLimit ∧
    s'.poison = s.poison ∧ s'.trace = s.trace

theorem Good.congr {s s' s'' : St} {o : Out} (h : Good s o s') (e : Same s' s'') : Good s o s'' := by
  obtain ⟨h1, h2, h3, h4, h5⟩ := e
  obtain ⟨g1, g2, g3, g4⟩ := h
  exact ⟨by rw [h2, g1], by rw [h3, g2], by rw [h1, h5]; exact g3, by rw [h4]; exact g4⟩

theorem Good.congr_left {s s₀ s' : St} {o : Out} (h : Good s o s') (e : Same s₀ s) : Good s₀ o s' := by
  obtain ⟨h1, h2, h3, h4, h5⟩ := e
  obtain ⟨g1, g2, g3, g4⟩ := h
  exact ⟨by rw [g1, h2], by rw [g2, h3], by rw [← h1, ← h5]; exact g3, g4⟩

theorem Good.ok (s : St) (f : Flow) (h : s.poison = none) : Good s (.ok f) s :=
  ⟨rfl, rfl, ⟨[], by simp, by simp, rfl, FuelOk.refl _⟩, h⟩

theorem Good.cut (s : St) : Good s .cut s :=
  ⟨rfl, rfl, ⟨[], by simp, by simp, trivial, FuelOk.refl _⟩, trivial⟩

/-- A successful run followed by another run. -/
theorem Good.trans {s s' s'' : St} {f : Flow} {o : Out} (h : Good s (.ok f) s') (h' : Good s' o s'') :
    Good s o s'' := by
  obtain ⟨g1, g2, ⟨t, ht, hp, hf, hu⟩, g4⟩ := h
  obtain ⟨k1, k2, ⟨t', ht', hp', hf', hu'⟩, k4⟩ := h'
  refine ⟨by rw [k1, g1], by rw [k2, g2], ⟨t ++ t', by rw [ht', ht, List.append_assoc], ?_, ?_,
    hu.trans hu'⟩, k4⟩
  · intro e he
    rcases List.mem_append.mp he with he | he
    · exact hp e he
    · exact hp' e he
  · rw [faults_append]
    simp only [FaultsOk] at hf
    rw [hf, List.nil_append]
    exact hf'

/-- The observation may stop anywhere. -/
theorem Good.cutOff {s s' : St} {o : Out} (h : Good s o s') : Good s .cut s' := by
  obtain ⟨g1, g2, ⟨t, ht, hp, _, hu⟩, _⟩ := h
  exact ⟨g1, g2, ⟨t, ht, hp, trivial, hu⟩, trivial⟩

/-- The state in which code after a source failure starts is running. -/
theorem Good.running {s s' : St} {a : SrcFail} (h : Good s (.err (.source a)) s') : s'.poison = none := by
  have := h.state
  simpa [StateOk, RErr.isPoisoning] using this

theorem Good.running_ok {s s' : St} {f : Flow} (h : Good s (.ok f) s') : s'.poison = none := h.state

theorem faultsOk_withFrame {o : Out} {l : List Ev} (f : Nat) (h : FaultsOk o l) :
    FaultsOk (o.withFrame f) l := by
  cases o with
  | ok _ => exact h
  | cut => trivial
  | err e =>
    cases e with
    | source a => exact h
    | during a b => exact h
    | sandbox v =>
      obtain ⟨k, fr, i⟩ := v
      cases i <;> exact h

theorem stateOk_withFrame {o : Out} {p : Option RErr} (f : Nat) (h : StateOk o p) :
    StateOk (o.withFrame f) p := by
  cases o with
  | ok _ => exact h
  | cut => trivial
  | err e =>
    simp only [Out.withFrame, StateOk] at *
    rw [← isPoisoning_bare, bare_withFrame, isPoisoning_bare]
    exact h

theorem Good.withFrame {s s' : St} {o : Out} (h : Good s o s') (f : Nat) :
    Good s (o.withFrame f) s' := by
  obtain ⟨g1, g2, ⟨t, ht, hp, hf, hu⟩, g4⟩ := h
  exact ⟨g1, g2, ⟨t, ht, hp, faultsOk_withFrame f hf, hu⟩, stateOk_withFrame f g4⟩

theorem Good.toValue {s s' : St} {o : Out} (h : Good s o s') : Good s o.toValue s' := by
  cases o with
  | ok _ =>
    obtain ⟨g1, g2, g3, g4⟩ := h
    exact ⟨g1, g2, g3, g4⟩
  | cut => exact h
  | err _ => exact h

theorem Good.emit {s : St} (h : s.poison = none) (k : Nat) : Good s (.ok .cont) (s.emit (.act k)) :=
  ⟨rfl, rfl, ⟨[⟨.act k, false⟩], by simp [St.emit, h], by simp, by rfl,
    by have := FuelOk.refl s.fuel; cases hf : s.fuel <;> simp [FuelOk, St.emit, hf, passes, outOfFuel]⟩, h⟩

theorem Good.fail {s : St} (h : s.poison = none) (k : Nat) :
    Good s (.err (.source ⟨k, []⟩)) (s.emit (.raise k)) :=
  ⟨rfl, rfl, ⟨[⟨.raise k, false⟩], by simp [St.emit, h], by simp, by rfl,
    by cases hf : s.fuel <;> simp [FuelOk, St.emit, hf, passes, outOfFuel]⟩, h⟩

theorem Good.violation {s : St} (h : s.poison = none) (k : VKind)
    (hk : k = .fuelExhausted → s.fuel = some 0) :
    Good s (.err (sandboxViolation k s).1) (sandboxViolation k s).2 :=
  ⟨rfl, rfl, ⟨[⟨.violate k, false⟩], by simp [sandboxViolation, St.emit, h], by simp, by rfl,
    by
      cases hf : s.fuel with
      | none =>
        have : k ≠ .fuelExhausted := fun h => by rw [hk h] at hf; cases hf
        simp [FuelOk, sandboxViolation, St.emit, hf, passes, outOfFuel, this.symm]
      | some n =>
        refine ⟨n, hf, by simp [passes], fun h => ?_⟩
        simp only [outOfFuel, List.map_cons, List.map_nil, List.mem_singleton, Ev.violate.injEq] at h
        have := hk h.symm
        rw [hf] at this
        injection this⟩,
    by simp [StateOk, sandboxViolation, RErr.isPoisoning]⟩

theorem checkFuel_good {s : St} (h : s.poison = none) : Good s (checkFuel s).1 (checkFuel s).2 := by
  unfold checkFuel
  cases hf : s.fuel with
  | none => exact Good.ok s _ h
  | some n =>
    cases n with
    | zero => exact Good.violation h _ (fun _ => hf)
    | succ n =>
      exact ⟨rfl, rfl, ⟨[⟨.fuelPassed, false⟩], by simp [St.emit, h], by simp, by rfl,
        by simp [FuelOk, St.emit, hf, passes, outOfFuel]⟩, h⟩

theorem checkCallDepth_good {s : St} (h : s.poison = none) :
    Good s (checkCallDepth s).1 (checkCallDepth s).2 := by
  unfold checkCallDepth
  split_ifs
  · exact Good.violation h _ (by simp)
  · exact Good.ok s _ h

theorem allocCell_good {s : St} (h : s.poison = none) : Good s (allocCell s).1 (allocCell s).2 := by
  unfold allocCell
  split_ifs
  · exact Good.violation h _ (by simp)
  · exact (Good.ok s _ h).congr ⟨rfl, rfl, rfl, rfl, rfl⟩

/-- A piece of code that satisfies the invariant whenever it is started in a running state. -/
def Safe (r : St → Out × St) : Prop := ∀ s, s.poison = none → Good s (r s).1 (r s).2

theorem faultsOk_two {a : SrcFail} {o : Out} {l : List Ev} (h : FaultsOk o l)
    (ho : ∀ f, o ≠ .ok f) (hc : o ≠ .cut) :
    (∀ b, o = .err (.source b) → FaultsOk (.err (.during a b)) (.raise a.kind :: l)) ∧
    (∀ v, o = .err (.sandbox v) → FaultsOk (.err (.sandbox (v.interrupt a))) (.raise a.kind :: l)) ∧
    (∀ b c, o = .err (.during b c) → FaultsOk (.err (.during b c)) (.raise a.kind :: l)) := by
  refine ⟨?_, ?_, ?_⟩
  · rintro b rfl
    exact ⟨[], by simp only [FaultsOk] at h; simp [h]⟩
  · rintro ⟨k, fr, i⟩ rfl
    cases i with
    | none =>
      exact ⟨[], by simp only [FaultsOk] at h; simp [h]⟩
    | some b =>
      obtain ⟨pre, hpre⟩ := h
      exact ⟨.raise a.kind :: pre, by simp [hpre]⟩
  · rintro b c rfl
    obtain ⟨pre, hpre⟩ := h
    exact ⟨.raise a.kind :: pre, by simp [hpre]⟩

/-- Common part of the proofs about a second fault. -/
theorem Good.second {s s₁ s₂ s₃ : St} {a : SrcFail} {o o' : Out}
    (h : Good s (.err (.source a)) s₁) (h' : Good s₁ o s₂)
    (hf : ∀ l, FaultsOk o l → FaultsOk o' (.raise a.kind :: l))
    (hs : StateOk o' s₃.poison)
    (e1 : s₃.fuel = s₂.fuel) (e2 : s₃.depthLimit = s₂.depthLimit) (e3 : s₃.envLimit = s₂.envLimit)
    (e4 : s₃.trace = s₂.trace) : Good s o' s₃ := by
  obtain ⟨g1, g2, ⟨t, ht, hp, hf1, hu⟩, g4⟩ := h
  obtain ⟨k1, k2, ⟨t', ht', hp', hf', hu'⟩, k4⟩ := h'
  refine ⟨by rw [e2, k1, g1], by rw [e3, k2, g2], ⟨t ++ t', by rw [e4, ht', ht, List.append_assoc], ?_,
    ?_, by rw [e1]; exact hu.trans hu'⟩, hs⟩
  · intro e he
    rcases List.mem_append.mp he with he | he
    · exact hp e he
    · exact hp' e he
  · rw [faults_append]
    simp only [FaultsOk] at hf1
    rw [hf1]
    exact hf _ hf'

theorem stateOk_self {e : RErr} (h : e.isPoisoning = true) : StateOk (.err e) (some e) := by
  simp [StateOk, h]

theorem poisonSourceFailures_good {s s₁ s₂ : St} {a b : SrcFail}
    (h : Good s (.err (.source a)) s₁) (h' : Good s₁ (.err (.source b)) s₂) :
    Good s (.err (poisonSourceFailures a b s₂).1) (poisonSourceFailures a b s₂).2 :=
  h.second h' (fun l hl => (faultsOk_two hl (by simp) (by simp)).1 b rfl) (stateOk_self rfl)
    rfl rfl rfl rfl

theorem recordViolation_good {s s₁ s₂ : St} {a : SrcFail} {v : Violation}
    (h : Good s (.err (.source a)) s₁) (h' : Good s₁ (.err (.sandbox v)) s₂) :
    Good s (.err (recordPoisoning (.sandbox (v.interrupt a)) s₂).1)
      (recordPoisoning (.sandbox (v.interrupt a)) s₂).2 :=
  h.second h' (fun l hl => (faultsOk_two hl (by simp) (by simp)).2.1 v rfl) (stateOk_self rfl)
    rfl rfl rfl rfl

theorem recordDuring_good {s s₁ s₂ : St} {a b c : SrcFail}
    (h : Good s (.err (.source a)) s₁) (h' : Good s₁ (.err (.during b c)) s₂) :
    Good s (.err (recordPoisoning (.during b c) s₂).1) (recordPoisoning (.during b c) s₂).2 :=
  h.second h' (fun l hl => (faultsOk_two hl (by simp) (by simp)).2.2 b c rfl) (stateOk_self rfl)
    rfl rfl rfl rfl

/-- Re-recording a poisoning error. -/
theorem recordPoisoning_good {s s' : St} {e : RErr} (hp : e.isPoisoning = true)
    (h : Good s (.err e) s') : Good s (.err (recordPoisoning e s').1) (recordPoisoning e s').2 := by
  obtain ⟨g1, g2, g3, g4⟩ := h
  exact ⟨g1, g2, g3, stateOk_self hp⟩

theorem cleanupAfterError_good {s s₁ : St} {e : RErr} {cleanup : St → Out × St}
    (h : Good s (.err e) s₁) (hc : Safe cleanup) :
    Good s (cleanupAfterError e cleanup s₁).1 (cleanupAfterError e cleanup s₁).2 := by
  cases e with
  | sandbox v => exact recordPoisoning_good rfl h
  | during a b => exact recordPoisoning_good rfl h
  | source a =>
    have hg := hc s₁ h.running
    unfold cleanupAfterError
    rcases hcl : cleanup s₁ with ⟨o, s₂⟩
    rw [hcl] at hg
    cases o with
    | cut =>
      refine h.second hg (fun _ _ => trivial) trivial rfl rfl rfl rfl
    | ok f =>
      refine h.second hg (fun l hl => ?_) ?_ rfl rfl rfl rfl
      · simp only [FaultsOk] at hl; simp [hl, FaultsOk]
      · exact hg.running_ok
    | err e =>
      cases e with
      | source b => exact poisonSourceFailures_good h hg
      | sandbox v => exact recordViolation_good h hg
      | during b c => exact recordDuring_good h hg

theorem underFrame_good {s : St} {r : Out × St} {drops : St → Out × St} (h : Good s r.1 r.2)
    (hd : Safe drops) : Good s (underFrame r drops).1 (underFrame r drops).2 := by
  rcases r with ⟨o, s'⟩
  cases o with
  | ok f => exact h
  | cut => exact h
  | err e => exact cleanupAfterError_good h hd

theorem leaveFrame_good {s : St} {r : Out × St} (env : Nat) (h : Good s r.1 r.2) :
    Good s (leaveFrame env r).1 (leaveFrame env r).2 := by
  rcases r with ⟨o, s'⟩
  cases o with
  | cut => exact h
  | ok f => exact h.congr ⟨rfl, rfl, rfl, rfl, rfl⟩
  | err e => exact h.congr ⟨rfl, rfl, rfl, rfl, rfl⟩

/-- Two outcomes that follow each other in time. -/
theorem combineYielded_good {s s₁ s₂ : St} {b e : Out} (h : Good s b s₁) (h' : Good s₁ e s₂)
    (hb : b.isPoisoning = false) :
    Good s (combineYielded b e s₂).1 (combineYielded b e s₂).2 := by
  cases b with
  | cut =>
    obtain ⟨g1, g2, ⟨t, ht, hp, hf, hu⟩, g4⟩ := h
    obtain ⟨k1, k2, ⟨t', ht', hp', hf', hu'⟩, k4⟩ := h'
    refine ⟨by simp [combineYielded, k1, g1], by simp [combineYielded, k2, g2], ⟨t ++ t', ?_, ?_,
      trivial, hu.trans hu'⟩, trivial⟩
    · simp [combineYielded, ht', ht]
    · intro x hx
      rcases List.mem_append.mp hx with hx | hx
      · exact hp x hx
      · exact hp' x hx
  | ok f =>
    cases e with
    | cut => exact h.trans h'
    | ok f' =>
      have := h.trans h'
      exact ⟨this.1, this.2, this.3, this.4⟩
    | err e => exact h.trans h'
  | err a =>
    cases a with
    | sandbox v => cases hb
    | during x y => cases hb
    | source a =>
      cases e with
      | cut => exact h.second h' (fun _ _ => trivial) trivial rfl rfl rfl rfl
      | ok f' =>
        refine h.second h' (fun l hl => ?_) ?_ rfl rfl rfl rfl
        · simp only [FaultsOk] at hl; simp [hl, FaultsOk, combineYielded]
        · exact h'.running_ok
      | err e =>
        cases e with
        | source b => exact poisonSourceFailures_good h h'
        | sandbox v => exact recordViolation_good h h'
        | during b c => exact recordDuring_good h h'

theorem resume_good {s : St} {epilogue drops : St → Out × St} (f : Nat) (he : Safe epilogue)
    (hd : Safe drops) (h : s.poison = none) :
    Good s (resumeOrAbandon f epilogue drops false s).1 (resumeOrAbandon f epilogue drops false s).2 := by
  unfold resumeOrAbandon
  simp only [Bool.false_eq_true, if_false]
  exact (leaveFrame_good _ (underFrame_good (he s h) hd)).withFrame f

theorem dropScopes_good {s : St} {scopes : St → Out × St} {body : Out} {r : Out × St}
    (hs : Safe scopes) (hb : body.isPoisoning = false) (h : Good s r.1 r.2) :
    Good s (dropScopes scopes body r).1 (dropScopes scopes body r).2 := by
  rcases r with ⟨o, s'⟩
  cases o with
  | cut => exact h
  | ok fl =>
    have hg := h.trans (hs s' h.running_ok)
    unfold dropScopes
    simp only [hb, Bool.false_eq_true, if_false]
    rcases hsc : scopes s' with ⟨o, s''⟩
    rw [hsc] at hg
    cases o with
    | ok _ => exact ⟨hg.1, hg.2, hg.3, hg.4⟩
    | err e => exact hg
    | cut => exact hg
  | err e =>
    cases body with
    | cut => exact h
    | err _ => exact h
    | ok fl =>
      unfold dropScopes
      simp only []
      split_ifs
      · exact h
      · exact cleanupAfterError_good h hs

theorem afterBody_good {s s' : St} {epilogue drops scopes : St → Out × St} {body : Out} (env f : Nat)
    (he : Safe epilogue) (hd : Safe drops) (hs : Safe scopes) (h : Good s body s') :
    Good s (afterBody env f epilogue drops scopes body s').1
      (afterBody env f epilogue drops scopes body s').2 := by
  by_cases hcut : body = .cut
  · subst hcut; exact h
  by_cases hb : body.isPoisoning = true
  · -- the accessor is abandoned
    cases body with
    | cut => cases hb
    | ok _ => cases hb
    | err e =>
      have : afterBody env f epilogue drops scopes (.err e) s' =
          (.err e, { s' with depth := s'.depth - 1, env := env }) := by
        simp [afterBody, resumeOrAbandon, hb, dropScopes, combineYielded]
      rw [this]
      exact h.congr ⟨rfl, rfl, rfl, rfl, rfl⟩
  · have hb : body.isPoisoning = false := by simpa using hb
    have hrun : s'.poison = none := by
      cases body with
      | cut => exact absurd rfl hcut
      | ok f => exact h.running_ok
      | err e =>
        cases e with
        | source a => exact h.running
        | sandbox v => cases hb
        | during x y => cases hb
    have hr := dropScopes_good (body := body) hs hb (resume_good f he hd hrun)
    unfold afterBody
    cases body with
    | cut => exact absurd rfl hcut
    | ok fl =>
      simp only [hb]
      rcases hds : dropScopes scopes (.ok fl) (resumeOrAbandon f epilogue drops false s') with ⟨o, s₂⟩
      rw [hds] at hr
      cases o with
      | cut => exact h.trans hr
      | ok _ => exact combineYielded_good h (hr.congr ⟨rfl, rfl, rfl, rfl, rfl⟩) hb
      | err _ => exact combineYielded_good h (hr.congr ⟨rfl, rfl, rfl, rfl, rfl⟩) hb
    | err e =>
      simp only [hb]
      rcases hds : dropScopes scopes (.err e) (resumeOrAbandon f epilogue drops false s') with ⟨o, s₂⟩
      rw [hds] at hr
      cases o with
      | cut =>
        cases e with
        | source a => exact h.second hr (fun _ _ => trivial) trivial rfl rfl rfl rfl
        | sandbox v => cases hb
        | during x y => cases hb
      | ok _ => exact combineYielded_good h (hr.congr ⟨rfl, rfl, rfl, rfl, rfl⟩) hb
      | err _ => exact combineYielded_good h (hr.congr ⟨rfl, rfl, rfl, rfl, rfl⟩) hb

theorem finishBlock_good {s : St} {r : Out × St} (env : Nat) (f : Flow) (h : Good s r.1 r.2) :
    Good s (finishBlock env f r).1 (finishBlock env f r).2 := by
  rcases r with ⟨o, s'⟩
  cases o with
  | cut => exact h
  | err e => exact h.congr ⟨rfl, rfl, rfl, rfl, rfl⟩
  | ok _ =>
    have := h.congr (s'' := { s' with env := env }) ⟨rfl, rfl, rfl, rfl, rfl⟩
    exact ⟨this.1, this.2, this.3, this.4⟩

theorem enterFrame_good {s : St} (h : s.poison = none) (args : Nat) :
    match enterFrame args s with
    | .error (e, s') => Good s (.err e) s'
    | .ok s' => Good s (.ok .cont) s' := by
  unfold enterFrame ensureRunnable
  rw [h]
  simp only []
  split_ifs
  · exact Good.violation h _ (by simp)
  · exact (Good.ok s _ h).congr ⟨rfl, rfl, rfl, h.symm, rfl⟩

/-- Every program keeps the invariant. -/
theorem run_good (fns : Nat → Fn) : ∀ (n : Nat) (p : Prog), Safe (run fns n p) := by
  intro n
  induction n with
  | zero =>
    intro p s _
    simp only [run]
    exact Good.cut s
  | succ n ih =>
    intro p s h
    cases p with
    | act k => exact Good.emit h k
    | fail k => exact Good.fail h k
    | checkFuel => exact checkFuel_good h
    | checkDepth => exact checkCallDepth_good h
    | alloc => exact allocCell_good h
    | done => exact Good.ok s _ h
    | exit t => exact Good.ok s _ h
    | seq p q =>
      have hp := ih p s h
      simp only [run]
      rcases hr : run fns n p s with ⟨o, s'⟩
      rw [hr] at hp
      cases o with
      | cut => exact hp
      | err e => exact hp
      | ok f =>
        cases f with
        | cont => exact hp.trans (ih q s' hp.running_ok)
        | transfer t => exact hp
    | choose p q =>
      have hs : Same s { s with choices := fun i => s.choices (i + 1) } := ⟨rfl, rfl, rfl, rfl, rfl⟩
      simp only [run]
      split_ifs
      · exact (ih p { s with choices := fun i => s.choices (i + 1) } h).congr_left hs
      · exact (ih q { s with choices := fun i => s.choices (i + 1) } h).congr_left hs
    | loop l p =>
      have hp := ih p s h
      simp only [run]
      rcases hr : run fns n p s with ⟨o, s'⟩
      rw [hr] at hp
      cases o with
      | cut => exact hp
      | err e => exact hp
      | ok f =>
        simp only []
        cases hl : loopStep l f with
        | some f' => exact ⟨hp.1, hp.2, hp.3, hp.4⟩
        | none => exact hp.trans (ih (.loop l p) s' hp.running_ok)
    | block p drops =>
      have hp := ih p s h
      simp only [run]
      rcases hr : run fns n p s with ⟨o, s'⟩
      rw [hr] at hp
      cases o with
      | cut => exact hp
      | ok f => exact finishBlock_good _ _ (hp.trans (ih drops s' hp.running_ok))
      | err e =>
        have hc := cleanupAfterError_good hp (ih drops)
        simp only []
        rcases hcl : cleanupAfterError e (run fns n drops) s' with ⟨o, s''⟩
        rw [hcl] at hc
        cases o with
        | cut => exact hc
        | ok _ => exact hc.congr ⟨rfl, rfl, rfl, rfl, rfl⟩
        | err _ => exact hc.congr ⟨rfl, rfl, rfl, rfl, rfl⟩
    | call f args =>
      have he := enterFrame_good h args
      simp only [run]
      cases hef : enterFrame args s with
      | error es =>
        rw [hef] at he
        exact he.withFrame f
      | ok s' =>
        rw [hef] at he
        have hb := he.trans (ih (fns f).body s' he.running_ok)
        exact ((leaveFrame_good s.env (underFrame_good hb (ih (fns f).frameDrops))).toValue).withFrame f
    | withYielded f args body scopes =>
      have he := enterFrame_good h args
      simp only [run]
      cases hef : enterFrame args s with
      | error es =>
        rw [hef] at he
        exact he.withFrame f
      | ok s' =>
        rw [hef] at he
        have hb := he.trans (ih (fns f).body s' he.running_ok)
        simp only []
        rcases hr : run fns n (fns f).body s' with ⟨o, s₁⟩
        rw [hr] at hb
        cases o with
        | cut => exact hb
        | err e =>
          exact (leaveFrame_good s.env (cleanupAfterError_good hb (ih (fns f).frameDrops))).withFrame f
        | ok fl =>
          exact afterBody_good s.env f (ih _) (ih _) (ih _) (hb.trans (ih body s₁ hb.running_ok))

/-- A poisoned executor is not entered. -/
theorem enter_poisoned (fns : Nat → Fn) (n f : Nat) (s : St) (e : RErr) (h : s.poison = some e) :
    enter fns (n + 1) f s = (.err (e.withFrame f), s) := by
  simp [enter, run, enterFrame, ensureRunnable, h, Out.withFrame]

end Ferlium.Exec
