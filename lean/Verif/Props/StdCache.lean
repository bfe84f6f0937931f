import Verif.Proofs.StdCache

/-!
# C97: the shared cache of the compiled standard library
-/

namespace Ferlium.StdCache

variable {R : Type}

/-- What happens on the system. -/
inductive Event
  | act (i : Nat) (c : Choice)
  | die (i : Nat)
  | disturb (cache : Option Bytes) (invalid : Bool)

/-- The state after it. -/
def Event.apply (E : Env R) : Event → State R → State R
  | .act i c, s => StdCache.act E i c s
  | .die i, s => StdCache.die i s
  | .disturb b inv, s => StdCache.disturb b inv s

/-- The state after a history. -/
def after (E : Env R) (s : State R) (l : List Event) : State R := l.foldl (fun s e => e.apply E s) s

/-- A file that is rejected, or has the contents that a process wrote. -/
def Harmless (E : Env R) (Made : Bytes → Prop) (b : Bytes) : Prop :=
  ∀ p, b = magic ++ E.digest p ++ p → Made p

/-- Snapshots that processes take are `Made`, and no one else puts a file there that passes the
check. -/
def Event.Allowed (E : Env R) (Made : Bytes → Prop) : Event → Prop
  | .act _ c => ∀ p, c.capture = .payload p → Made p
  | .die _ => True
  | .disturb b _ => ∀ x, b = some x → Harmless E Made x

/-- All processes start; old temporary files may lie around. -/
structure Initial (E : Env R) (Made : Bytes → Prop) (s : State R) : Prop where
  start : ∀ i, s.pc i = .start
  free : s.holder = none
  cache : ∀ x, s.cache = some x → Harmless E Made x

theorem inv_after {E : Env R} {Made : Bytes → Prop} {Good : R → Prop}
    (hd : ∀ p, (E.digest p).length = 32) (hc : Good E.compiled) (hf : Good E.leftover)
    (hload : ∀ p r, Made p → E.load p = some r → Good r) (l : List Event) :
    ∀ {s : State R}, Inv E Made Good s → (∀ e ∈ l, e.Allowed E Made) → Inv E Made Good (after E s l) := by
  induction l with
  | nil => intro s h _; exact h
  | cons e t ih =>
    intro s h ha
    refine ih ?_ fun e he => ha e (List.mem_cons_of_mem _ he)
    have he := ha e List.mem_cons_self
    cases e with
    | act i c => exact h.act hd hc hf hload i c he
    | die i => exact h.leave rfl trivial
    | disturb b inv =>
      exact ⟨fun x p hx hp => he x hx p ((checked_iff hd x p).1 hp), h.held, h.live, h.ok⟩

theorem inv_initial {E : Env R} {Made : Bytes → Prop} (Good : R → Prop)
    (hd : ∀ p, (E.digest p).length = 32) {s : State R} (h : Initial E Made s) : Inv E Made Good s := by
  refine ⟨fun x p hx hp => h.cache x hx p ((checked_iff hd x p).1 hp), fun i hi => ?_, fun i hi => ?_,
    fun i => ?_⟩
  · rw [h.start i] at hi; cases hi
  · rw [h.free] at hi; cases hi
  · rw [h.start i]; trivial

/-- **C97.** The check accepts exactly the files that are written: every payload comes back, and no
other contents are taken for it. -/
theorem C97_check_exact {E : Env R} (hd : ∀ p, (E.digest p).length = 32) (b p : Bytes) :
    checked E b = some p ↔ b = magic ++ E.digest p ++ p := checked_iff hd b p

/-- **C97.** Whatever processes do at the same time, whichever of them die and whatever operations
fail, no process ever starts with a library that is not good. That what a failed capture hands out is
good is a hypothesis, which C99 shows to be false for failures at early pieces of source code. -/
theorem C97_only_good_libraries {E : Env R} {Made : Bytes → Prop} {Good : R → Prop}
    (hd : ∀ p, (E.digest p).length = 32) (hc : Good E.compiled) (hf : Good E.leftover)
    (hload : ∀ p r, Made p → E.load p = some r → Good r) {s : State R} (hs : Initial E Made s)
    {l : List Event} (hl : ∀ e ∈ l, e.Allowed E Made) {i : Nat} {r : R}
    (h : (after E s l).pc i = .done r) : Good r := by
  have := (inv_after hd hc hf hload l (inv_initial Good hd hs) hl).ok i
  rw [h] at this
  exact this

/-- **C97.** At every moment the file at the path of the cache is a complete one if it passes the
check, also after a process died while it wrote. -/
theorem C97_files_complete {E : Env R} {Made : Bytes → Prop}
    (hd : ∀ p, (E.digest p).length = 32) {s : State R} (hs : Initial E Made s)
    {l : List Event} (hl : ∀ e ∈ l, e.Allowed E Made) {b p : Bytes}
    (hb : (after E s l).cache = some b) (hp : checked E b = some p) :
    Made p ∧ b = magic ++ E.digest p ++ p :=
  ⟨(inv_after (Good := fun _ => True) hd trivial trivial (fun _ _ _ _ => trivial) l (inv_initial _ hd hs) hl).cache
    b p hb hp, (checked_iff hd b p).1 hp⟩

/-- The process builds or publishes the cache. -/
def Builds (pc : Pc R) : Prop :=
  pc = .discard ∨ pc = .build ∨ (∃ p r, pc = .create p r ∨ pc = .write p r ∨ pc = .rename p r ∨
    pc = .replace p r ∨ pc = .again p r) ∨ ∃ r, pc = .cleanup r

theorem Builds.holding {pc : Pc R} (h : Builds pc) : Holding pc = true := by
  rcases h with rfl | rfl | ⟨p, r, rfl | rfl | rfl | rfl | rfl⟩ | ⟨r, rfl⟩ <;> rfl

/-- **C97.** Two processes never build or publish at the same time. -/
theorem C97_one_builder {E : Env R} {Made : Bytes → Prop}
    (hd : ∀ p, (E.digest p).length = 32) {s : State R} (hs : Initial E Made s)
    {l : List Event} (hl : ∀ e ∈ l, e.Allowed E Made) {i j : Nat}
    (hi : Builds ((after E s l).pc i)) (hj : Builds ((after E s l).pc j)) : i = j := by
  have h := inv_after (Good := fun _ => True) hd trivial trivial (fun _ _ _ _ => trivial) l (inv_initial _ hd hs) hl
  have h1 := h.held i hi.holding
  rw [h.held j hj.holding] at h1
  exact (Option.some.inj h1).symm

/-- **C97.** The lock is never left behind: its holder is still at work. -/
theorem C97_lock_not_orphaned {E : Env R} {Made : Bytes → Prop}
    (hd : ∀ p, (E.digest p).length = 32) {s : State R} (hs : Initial E Made s)
    {l : List Event} (hl : ∀ e ∈ l, e.Allowed E Made) {i : Nat}
    (hi : (after E s l).holder = some i) :
    (after E s l).pc i = .locked ∨ Builds ((after E s l).pc i) := by
  have h := inv_after (Good := fun _ => True) hd trivial trivial (fun _ _ _ _ => trivial) l (inv_initial _ hd hs) hl
  have h1 := h.live i hi
  unfold Builds
  cases hpc : (after E s l).pc i <;> rw [hpc] at h1 <;> first | (cases h1; done) | simp

/-- The steps of a process in a history. -/
def steps (i : Nat) : List Event → Nat
  | [] => 0
  | .act j _ :: t => (if j = i then 1 else 0) + steps i t
  | _ :: t => steps i t

theorem left_after (E : Env R) (i : Nat) (l : List Event) :
    ∀ s : State R, left E ((after E s l).pc i) ≤ left E (s.pc i) - steps i l := by
  induction l with
  | nil => intro s; simp [after, steps]
  | cons e t ih =>
    intro s
    have h := ih (e.apply E s)
    change left E ((after E (e.apply E s) t).pc i) ≤ _
    have he : left E ((e.apply E s).pc i) ≤ left E (s.pc i) - (steps i (e :: t) - steps i t) := by
      cases e with
      | act j c =>
        simp only [Event.apply, steps]
        by_cases hj : j = i
        · subst hj
          simp only [if_true]
          by_cases h0 : left E (s.pc j) = 0
          · have : act E j c s = s := by
              unfold act
              cases hpc : s.pc j <;> rw [hpc] at h0 <;> simp [left] at h0 <;> rfl
            rw [this]; omega
          · have := act_left E j c s h0
            omega
        · rw [act_other E (Ne.symm hj)]
          simp [hj]
      | die j =>
        simp only [Event.apply, steps, die, State.leave, State.goto]
        split
        · simp [left]
        · simp
      | disturb b inv => simp [Event.apply, steps, disturb]
    have hst : steps i t ≤ steps i (e :: t) := by
      cases e <;> simp [steps]
    omega

/-- **C97.** No process waits for ever: after a number of its own steps that does not depend on the
others it has its library, or it died. -/
theorem C97_every_process_ends {E : Env R} {s : State R} {i : Nat} (hs : s.pc i = .start)
    {l : List Event} (hl : 3 * E.polls + 20 ≤ steps i l) :
    (∃ r, (after E s l).pc i = .done r) ∨ (after E s l).pc i = .dead := by
  have h := left_after E i l s
  rw [hs] at h
  have h0 : left E ((after E s l).pc i) = 0 := by
    have h1 : left E (.start : Pc R) = 3 * E.polls + 20 := rfl
    omega
  cases hpc : (after E s l).pc i <;> rw [hpc] at h0 <;> simp [left] at h0 <;> simp

/-- A history without failures of operations, in which no one disturbs the files. -/
def Event.Smooth : Event → Prop
  | .act _ c => c.fails = false
  | .die _ => True
  | .disturb _ _ => False

/-- A usable cache, and no process that builds one. -/
def Stocked (E : Env R) (p : Bytes) (r : R) (s : State R) : Prop :=
  s.cache = some (magic ++ E.digest p ++ p) ∧ E.load p = some r ∧ ∀ i, ¬ Builds (s.pc i)

/-- **C97.** Once a usable cache is published, it stays, and no process builds it again. -/
theorem C97_built_once {E : Env R} (hd : ∀ p, (E.digest p).length = 32) {p : Bytes} {r : R}
    (l : List Event) (hl : ∀ e ∈ l, e.Smooth) :
    ∀ {s : State R}, Stocked E p r s → Stocked E p r (after E s l) := by
  induction l with
  | nil => intro s h; exact h
  | cons e t ih =>
    intro s h
    refine ih (fun e he => hl e (List.mem_cons_of_mem _ he)) ?_
    have he := hl e List.mem_cons_self
    obtain ⟨h1, h2, h3⟩ := h
    have hload : tryLoad E false s.cache = .hit r := by
      simp only [tryLoad, h1, (C97_check_exact hd _ p).2 rfl, h2]
      rfl
    have hpcs : ∀ (i : Nat) (pc : Pc R), ¬ Builds pc → ∀ j, ¬ Builds (if j = i then pc else s.pc j) := by
      intro i pc hpc j
      split
      · exact hpc
      · exact h3 j
    cases e with
    | disturb => cases he
    | die i =>
      refine ⟨h1, h2, hpcs i .dead ?_⟩
      simp [Builds]
    | act i c =>
      simp only [Event.Smooth] at he
      have hi := h3 i
      simp only [Event.apply, act, he, hload]
      cases hpc : s.pc i <;> rw [hpc] at hi <;> simp only [] <;>
        first
          | (exfalso; apply hi; simp [Builds]; done)
          | skip
      all_goals
        repeat' split
      all_goals
        first
          | exact ⟨h1, h2, h3⟩
          | (refine ⟨h1, h2, hpcs i _ ?_⟩; simp [Builds])
          | simp_all

/-- **C97.** A process that starts then gets the library from the cache at once. -/
theorem C97_served_at_once {E : Env R} (hd : ∀ p, (E.digest p).length = 32) {p : Bytes} {r : R}
    {s : State R} (h : s.cache = some (magic ++ E.digest p ++ p)) (hr : E.load p = some r) {i : Nat}
    (hi : s.pc i = .start) {c : Choice} (hc : c.fails = false) (hn : c.noPath = false) :
    (act E i c s).pc i = .done r := by
  have hload : tryLoad E false s.cache = .hit r := by
    simp only [tryLoad, h, (C97_check_exact hd _ p).2 rfl, hr]
    rfl
  simp [act, hi, hn, hc, hload, State.leave, State.goto]

/-- **C97.** A process that publishes without a failure stocks the cache. -/
theorem C97_publishing_stocks {E : Env R} {Made : Bytes → Prop} {Good : R → Prop}
    {s : State R} (hs : Inv E Made Good s) {i : Nat} {p : Bytes} {r r' : R} (hi : s.pc i = .rename p r)
    (hr : E.load p = some r') {c : Choice} (hc : c.fails = false) : Stocked E p r' (act E i c s) := by
  have hok := hs.ok i
  rw [hi] at hok
  refine ⟨?_, hr, fun j => ?_⟩
  · simp only [act, hi, hc]
    exact hok.2.2
  · intro hb
    by_cases hj : j = i
    · subst hj
      simp [act, hi, hc, State.leave, State.goto, Builds] at hb
    · rw [act_other E hj] at hb
      have h1 := hs.held j hb.holding
      rw [hs.held i (by rw [hi]; rfl)] at h1
      cases h1
      exact hj rfl

/-! ## A history -/

namespace Example

/-- A library is a number; a digest repeats the length of the payload. -/
def env : Env Nat := ⟨fun p => List.replicate 32 p.length, fun p => if p = [1, 2] then some 7 else none, 7, 7, id, 3⟩

/-- No cache, and a temporary file that an earlier process 1 left. -/
def start : State Nat := ⟨none, false, none, fun n => if n = 1 then some [4] else none, fun _ => .start⟩

theorem initial : Initial env (· = [1, 2]) start := ⟨fun _ => rfl, rfl, fun _ h => by cases h⟩

/-- All goes well, and a process that builds gets the payload. -/
def well : Choice := ⟨false, false, false, .payload [1, 2], []⟩

/-- A write fails half way. -/
def half : Choice := ⟨false, true, false, .payload [1, 2], [70, 69]⟩

/-- Process 0 dies after a failed write, process 1 waits meanwhile, builds then and cannot publish
because of the old file; process 2 builds again and publishes, and process 3 loads. -/
def history : List Event :=
  (List.replicate 10 (Event.act 0 well)) ++ List.replicate 7 (Event.act 1 well) ++
    [.act 0 half, .die 0] ++ List.replicate 8 (Event.act 1 well) ++
    List.replicate 12 (Event.act 2 well) ++ [.act 3 well]

theorem allowed : ∀ e ∈ history, e.Allowed env (· = [1, 2]) := by
  intro e he
  have : e = .act 0 well ∨ e = .act 1 well ∨ e = .act 0 half ∨ e = .die 0 ∨ e = .act 2 well ∨
      e = .act 3 well := by
    simp only [history, List.mem_append, List.mem_replicate, List.mem_cons, List.not_mem_nil] at he
    tauto
  rcases this with rfl | rfl | rfl | rfl | rfl | rfl <;>
    first
      | trivial
      | (intro p hp; cases hp; rfl)

/-- All that the theorems ask for holds here. -/
example : ((after env start history).pc 0 matches .dead) ∧ ((after env start history).pc 1 matches .done 7) ∧
    ((after env start history).pc 2 matches .done 7) ∧ ((after env start history).pc 3 matches .done 7) ∧
    (after env start history).cache = some (magic ++ List.replicate 32 2 ++ [1, 2]) ∧
    (∀ i r, (after env start history).pc i = .done r → r = 7) := by
  refine ⟨by decide +kernel, by decide +kernel, by decide +kernel, by decide +kernel, by decide +kernel,
    fun i r h => ?_⟩
  refine C97_only_good_libraries (Good := (· = 7)) (fun p => by simp [env]) rfl rfl ?_ initial allowed h
  intro p r hp hr
  simp only [env, hp, if_true, Option.some.injEq] at hr
  exact hr.symm

/-- Process 0 builds in the middle of the history, and it alone. -/
example : ∀ j, Builds ((after env start (history.take 9)).pc j) → j = 0 := by
  intro j hj
  refine C97_one_builder (E := env) (fun p => by simp [env]) initial
    (fun e he => allowed e (List.mem_of_mem_take he)) hj ?_
  exact .inr (.inr (.inl ⟨[1, 2], 7, .inl rfl⟩))

/-- The library that a failed capture hands out is 6, not 7. -/
def env' : Env Nat := { env with leftover := 6 }

end Example

/-- **C97 (negation).** If a failed capture hands out a library that is not good, then a process may
start with it. -/
theorem C97_failed_capture_violated : ∃ (E : Env Nat) (s : State Nat) (l : List Event),
    (∀ p, (E.digest p).length = 32) ∧ Initial E (· = [1, 2]) s ∧ (∀ e ∈ l, e.Allowed E (· = [1, 2])) ∧
    (∀ p r, p = [1, 2] → E.load p = some r → r = E.compiled) ∧
    (after E s l).pc 0 = .done E.leftover ∧ E.leftover ≠ E.compiled := by
  refine ⟨Example.env', Example.start, List.replicate 9 (.act 0 ⟨false, false, false, .failed, []⟩),
    fun p => by simp [Example.env', Example.env], ⟨fun _ => rfl, rfl, fun _ h => by cases h⟩, ?_, ?_, ?_, by decide⟩
  · intro e he
    rw [(List.mem_replicate.1 he).2]
    intro p hp
    cases hp
  · intro p r hp hr
    simp only [Example.env', Example.env, hp, if_true, Option.some.injEq] at hr
    exact hr.symm
  · rfl

end Ferlium.StdCache
