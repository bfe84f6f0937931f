import Verif.Proofs.Checkpoint

/-!
# C99: the standard library restored from a snapshot is the compiled one

`build` is the specification: the library compiled without any snapshot.
-/

namespace Ferlium.Checkpoint

variable {V : Type}

/-- Source code changes no function that was there before it. -/
def OnlyAdds (steps : List (Step V)) : Prop :=
  ∀ c, Step.source c ∈ steps → ∀ m, ∀ o ∈ c m, o.Fresh m.functions.length

/-- **C99.** If a snapshot was taken, the library that was compiled meanwhile is the library compiled
without taking one, and restoring the snapshot gives the same library. -/
theorem C99_restored_is_compiled {C : Codec V} (hC : C.Lawful) {steps : List (Step V)}
    (hs : OnlyAdds steps) {start m : Module V} {snap : Snapshot C}
    (h : captureAll C steps start = (some snap, m)) :
    m = build steps start ∧ restore snap steps start = some (build steps start) := by
  unfold captureAll at h
  rcases hr : record C steps (start, [], false) with ⟨m', cs, e⟩
  rw [hr] at h
  simp only [Prod.mk.injEq] at h
  obtain ⟨h1, rfl⟩ := h
  split at h1
  · cases h1
  rename_i he
  simp only [Bool.or_eq_true, not_or, Bool.not_eq_true] at he
  obtain ⟨rfl, -⟩ := he
  cases h1
  obtain ⟨h2, new, h3, h4⟩ := record_replay hC steps hs _ _ _ _ hr
  simp only [List.nil_append] at h3
  subst h3
  refine ⟨h2, ?_⟩
  have := h4 []
  rw [List.append_nil] at this
  simp [restore, this, h2]

theorem replay_failed {C : Codec V} (steps : List (Step V)) : ∀ (m : Module V) (cs : List (Saved C)) m' cs' e,
    replay steps (m, cs, true) = (m', cs', e) → e = true := by
  induction steps with
  | nil => intro m cs m' cs' e h; cases h; rfl
  | cons st t ih =>
    intro m cs m' cs' e h
    cases st with
    | native f => exact ih _ _ _ _ _ h
    | source c =>
      simp only [replay, if_true] at h
      exact ih _ _ _ _ _ h

/-- The number of pieces of source code. -/
def sources : List (Step V) → Nat
  | [] => 0
  | .native _ :: t => sources t
  | .source _ :: t => sources t + 1

theorem replay_count {C : Codec V} (steps : List (Step V)) : ∀ (m : Module V) (cs : List (Saved C)) m' cs',
    replay steps (m, cs, false) = (m', cs', false) → cs.length = sources steps + cs'.length := by
  induction steps with
  | nil => intro m cs m' cs' h; cases h; simp [sources]
  | cons st t ih =>
    intro m cs m' cs' h
    cases st with
    | native f => exact ih _ _ _ _ h
    | source c =>
      simp only [replay, Bool.false_eq_true, if_false] at h
      cases cs with
      | nil => exact absurd (replay_failed t _ _ _ _ _ h) (by simp)
      | cons s cs =>
        simp only [] at h
        split at h
        · have := ih _ _ _ _ h
          simp only [List.length_cons, sources]
          omega
        · exact absurd (replay_failed t _ _ _ _ _ h) (by simp)

/-- **C99.** A snapshot is used only if it has a checkpoint for every piece of source code and no
other, and the native code it was taken with is that of the library that results. -/
theorem C99_other_snapshots_refused {C : Codec V} {steps : List (Step V)} {start m : Module V}
    {snap : Snapshot C} (h : restore snap steps start = some m) :
    snap.checkpoints.length = sources steps ∧ snap.offer = C.offer m := by
  unfold restore at h
  rcases hr : replay steps (start, snap.checkpoints, false) with ⟨m', cs, e⟩
  rw [hr] at h
  simp only [] at h
  split at h
  · cases h
  rename_i he
  cases h
  simp only [Bool.or_eq_true, not_or, Bool.not_eq_true, Bool.not_eq_false', List.isEmpty_iff,
    bne_eq_false_iff_eq] at he
  obtain ⟨⟨rfl, rfl⟩, ho⟩ := he
  have := replay_count steps _ _ _ _ hr
  exact ⟨by simpa using this, ho⟩

/-- **C99.** A snapshot is handed out only of a library of three pieces of source code, and has one part
for each. -/
theorem C99_snapshots_are_whole {C : Codec V} (hC : C.Lawful) {steps : List (Step V)}
    (hs : OnlyAdds steps) {start m : Module V} {snap : Snapshot C}
    (h : captureAll C steps start = (some snap, m)) : snap.checkpoints.length = 3 ∧ sources steps = 3 := by
  have h3 : snap.checkpoints.length = 3 := by
    unfold captureAll at h
    rcases hr : record C steps (start, [], false) with ⟨m', cs, e⟩
    rw [hr] at h
    simp only [Prod.mk.injEq] at h
    obtain ⟨h1, -⟩ := h
    split at h1
    · cases h1
    · rename_i hn
      cases h1
      simp only [Bool.or_eq_true, bne_iff_ne, ne_eq, not_or, not_not] at hn
      exact hn.2
  exact ⟨h3, (C99_other_snapshots_refused (C99_restored_is_compiled hC hs h).2).1 ▸ h3⟩

/-- **C99.** A checkpoint is refused by a module of other sizes than the one it was taken from, and the
result has the sizes that were recorded. -/
theorem C99_sizes_agree {C : Codec V} {s : Saved C} {m m' : Module V} (h : apply s m = some m') :
    Shape.of m = s.before ∧ Shape.of m' = s.after := by
  simp only [apply] at h
  split at h
  · cases h
  rename_i h1
  split at h
  · cases h
  simp only [Option.bind_eq_bind, Option.bind_eq_some_iff] at h
  obtain ⟨_, -, _, -, _, -, _, -, _, -, _, -, _, -, _, -, h⟩ := h
  split at h
  · cases h
  rename_i h2
  cases h
  exact ⟨not_not.1 h1, not_not.1 h2⟩

theorem record_append (C : Codec V) (a b : List (Step V)) : ∀ s,
    record C (a ++ b) s = record C b (record C a s) := by
  induction a with
  | nil => intro s; rfl
  | cons st t ih =>
    rintro ⟨m, cs, e⟩
    cases st with
    | native f => exact ih _
    | source c =>
      simp only [List.cons_append, record]
      split
      · exact ih _
      · split <;> exact ih _

theorem build_append (a b : List (Step V)) : ∀ m, build (a ++ b) m = build b (build a m) := by
  induction a with
  | nil => intro m; rfl
  | cons st t ih =>
    intro m
    cases st with
    | native f => exact ih _
    | source c => exact ih _

/-- **C99 (partial).** If no snapshot could be taken because of the last piece of source code, then the
library that is handed out is the compiled one. Missing: failures at earlier pieces, for which it is
false. -/
theorem C99_library_after_late_failure_partial {C : Codec V} (hC : C.Lawful) {steps : List (Step V)}
    (hs : OnlyAdds steps) {last : Module V → List (Op V)} {start m m' : Module V} {cs : List (Saved C)}
    (hr : record C steps (start, [], false) = (m', cs, false))
    (h : captureAll C (steps ++ [.source last]) start = (none, m)) :
    m = build (steps ++ [.source last]) start := by
  obtain ⟨hb, -⟩ := record_replay hC steps hs _ _ _ _ hr
  unfold captureAll at h
  rw [record_append, hr] at h
  rw [build_append, ← hb]
  simp only [record, Bool.false_eq_true, if_false] at h
  cases hc : capture C (Shape.of m') ((last m').foldl Op.run m') with
  | none =>
    rw [hc] at h
    simp only [record, Prod.mk.injEq] at h
    exact h.2.symm
  | some s =>
    rw [hc] at h
    simp only [record, Prod.mk.injEq] at h
    exact h.2.symm

namespace Example

/-- Values are numbers; 7 cannot be captured. -/
def C : Codec Nat where
  S := Nat
  A := Alias
  enc v := if v = 7 then none else some v
  dec := some
  encAlias := some
  decAlias := some
  encProj := some
  decProj := some
  native v := v = 9
  offer m := m.functions.count 9

theorem C_lawful : C.Lawful where
  val v s h := by
    simp only [C] at h ⊢
    split at h
    · cases h
    · exact h.symm ▸ rfl
  als _ _ h := h.symm
  proj _ _ h := h.symm

/-- A module with nothing. -/
def empty : Module Nat := ⟨[], [], ⟨[], fun _ => none⟩, [], [], ⟨[], fun _ => none⟩, ∅, 0, [], ∅, 0⟩

/-- Native code, then source code which defines a function under a name and one under the same name,
a type and an alias; more native code, more source code. -/
def steps : List (Step Nat) :=
  [.native fun m => { m with functions := m.functions ++ [9] },
   .source fun m => [.function 1, .define (m.functions.length, some 5), .function 2, .setFunction
      (m.functions.length) 3, .define (m.functions.length + 1, some 5), .setAlias ⟨4, false, 8, 0⟩],
   .native fun m => { m with functions := m.functions ++ [9] },
   .source fun _ => [.typeDefs [1, 2], .node 3, .deps {2, 1}],
   .source fun _ => [.define (0, none), .impls 4, .projections {3}]]

theorem steps_add : OnlyAdds steps := by
  intro c hc m o ho
  simp only [steps, List.mem_cons, reduceCtorEq, Step.source.injEq, List.not_mem_nil, or_false,
    false_or] at hc
  rcases hc with rfl | rfl | rfl <;> simp only [List.mem_cons, List.not_mem_nil, or_false] at ho
  · rcases ho with rfl | rfl | rfl | rfl | rfl | rfl <;> simp [Op.Fresh]
  · rcases ho with rfl | rfl | rfl <;> simp [Op.Fresh]
  · rcases ho with rfl | rfl | rfl <;> simp [Op.Fresh]

/-- A snapshot is taken and restored; the library has both functions with one name. -/
example : ∃ snap m, captureAll C steps empty = (some snap, m) ∧ restore snap steps empty = some m ∧
    m.functions = [9, 3, 2, 9] ∧ m.defs.ids 5 = some 1 ∧ m.aliases.names 8 = some 4 := by
  have h : (captureAll C steps empty).1.isSome = true := by decide +kernel
  obtain ⟨snap, hsnap⟩ := Option.isSome_iff_exists.1 h
  have hc : captureAll C steps empty = (some snap, (captureAll C steps empty).2) := Prod.ext hsnap rfl
  obtain ⟨h1, h2⟩ := C99_restored_is_compiled C_lawful steps_add hc
  refine ⟨snap, _, hc, by rw [h2, ← h1], ?_⟩
  rw [h1]
  decide +kernel

/-- Three pieces of source code, the first of which cannot be captured. -/
def failing : List (Step Nat) :=
  [.source fun _ => [.function 7], .source fun _ => [.function 1], .source fun _ => [.function 2]]

end Example

/-- **C99 (negation).** If no snapshot could be taken because of an earlier piece of source code, the
library that is handed out as the compiled one may lack all later pieces: they are not compiled. -/
theorem C99_library_after_failure_violated : ∃ (C : Codec Nat) (steps : List (Step Nat))
    (start : Module Nat), C.Lawful ∧ OnlyAdds steps ∧ (captureAll C steps start).1 = none ∧
      (captureAll C steps start).2.functions = [7] ∧ (build steps start).functions = [7, 1, 2] := by
  refine ⟨Example.C, Example.failing, Example.empty, Example.C_lawful, ?_, ?_, ?_, ?_⟩
  · intro c hc m o ho
    simp only [Example.failing, List.mem_cons, Step.source.injEq, List.not_mem_nil, or_false] at hc
    rcases hc with rfl | rfl | rfl <;> simp only [List.mem_singleton] at ho <;> subst ho <;> simp [Op.Fresh]
  · have : (captureAll Example.C Example.failing Example.empty).1.isSome = false := by decide +kernel
    simpa using this
  · decide +kernel
  · decide +kernel

/-- A failure at the last piece: the library is complete. -/
example : (captureAll Example.C ([.source fun _ => [.function 1]] ++ [.source fun _ => [.function 7]])
    Example.empty).2 = build ([.source fun _ => [.function 1]] ++ [.source fun _ => [.function 7]])
    Example.empty := by
  have hr : (record Example.C [.source fun _ => [.function 1]] (Example.empty, [], false)).2.2 = false := by
    decide +kernel
  refine C99_library_after_late_failure_partial Example.C_lawful (steps := [.source fun _ => [.function 1]])
    (fun c hc m o ho => ?_) (m' := _) (cs := _) (Prod.ext rfl (Prod.ext rfl hr)) (Prod.ext ?_ rfl)
  · simp only [List.mem_singleton, Step.source.injEq] at hc
    subst hc
    simp only [List.mem_singleton] at ho
    subst ho
    trivial
  · have : (captureAll Example.C ([.source fun _ => [.function 1]] ++ [.source fun _ => [.function 7]])
        Example.empty).1.isSome = false := by decide +kernel
    simpa using this

end Ferlium.Checkpoint
