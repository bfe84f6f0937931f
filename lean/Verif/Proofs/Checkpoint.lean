import Verif.Model.Checkpoint
import Mathlib.Tactic

/-!
# Lemmas on saving and restoring the compiled standard library
-/

namespace Ferlium.Checkpoint

variable {V : Type}

/-- What is captured is materialized as it was. -/
structure Codec.Lawful (C : Codec V) : Prop where
  val : ∀ v s, C.enc v = some s → C.dec s = some v
  als : ∀ v s, C.encAlias v = some s → C.decAlias s = some v
  proj : ∀ v s, C.encProj v = some s → C.decProj s = some v

/-- An operation does not change functions that were there before. -/
def Op.Fresh (n : Nat) : Op V → Prop
  | .setFunction i _ => n ≤ i
  | _ => True

theorem mapM_dec {α β : Type} {enc : α → Option β} {dec : β → Option α}
    (h : ∀ v s, enc v = some s → dec s = some v) (l : List α) :
    ∀ r, l.mapM enc = some r → r.mapM dec = some l := by
  induction l with
  | nil => intro r hr; simp at hr; subst hr; rfl
  | cons a t ih =>
    intro r hr
    rw [List.mapM_cons] at hr
    cases ha : enc a with
    | none => rw [ha] at hr; cases hr
    | some b =>
      rw [ha] at hr
      cases ht : t.mapM enc with
      | none => rw [ht] at hr; cases hr
      | some r' =>
        rw [ht] at hr
        cases hr
        rw [List.mapM_cons, h a b ha]
        show ((r'.mapM dec).bind fun x => some (a :: x)) = _
        rw [ih r' ht]
        rfl

theorem mapM_length {α β : Type} {f : α → Option β} (l : List α) :
    ∀ r, l.mapM f = some r → r.length = l.length := by
  induction l with
  | nil => intro r hr; simp at hr; subst hr; rfl
  | cons a t ih =>
    intro r hr
    rw [List.mapM_cons] at hr
    cases ha : f a with
    | none => rw [ha] at hr; cases hr
    | some b =>
      rw [ha] at hr
      cases ht : t.mapM f with
      | none => rw [ht] at hr; cases hr
      | some r' =>
        rw [ht] at hr
        cases hr
        simp [ih r' ht]

theorem foldl_set_entries (l : List Alias) : ∀ t : Aliases, (l.foldl Aliases.set t).entries = t.entries ++ l := by
  induction l with
  | nil => intro t; simp
  | cons a l ih => intro t; simp [ih, Aliases.set]

theorem foldl_insert_data (l : List (Nat × Option Nat)) : ∀ t : Defs,
    (l.foldl Defs.insert t).data = t.data ++ l := by
  induction l with
  | nil => intro t; simp
  | cons a l ih => intro t; simp [ih, Defs.insert]

/-- `m'` is `m` with additions. -/
structure Ext (m m' : Module V) : Prop where
  functions : ∃ l, m'.functions = m.functions ++ l
  subscripts : ∃ l, m'.subscripts = m.subscripts ++ l
  aliases : ∃ l : List Alias, m'.aliases = l.foldl Aliases.set m.aliases
  traits : ∃ l, m'.traits = m.traits ++ l
  defs : ∃ l : List (Nat × Option Nat), m'.defs = l.foldl Defs.insert m.defs
  hir : ∃ l, m'.hir = m.hir ++ l
  rest : m'.rest = m.rest

theorem Ext.refl (m : Module V) : Ext m m :=
  ⟨⟨[], by simp⟩, ⟨[], by simp⟩, ⟨[], rfl⟩, ⟨[], by simp⟩, ⟨[], rfl⟩, ⟨[], by simp⟩, rfl⟩

theorem Ext.run {m m' : Module V} (h : Ext m m') {o : Op V} (ho : o.Fresh m.functions.length) :
    Ext m (Op.run m' o) := by
  obtain ⟨⟨l1, h1⟩, ⟨l2, h2⟩, ⟨l3, h3⟩, ⟨l4, h4⟩, ⟨l5, h5⟩, ⟨l6, h6⟩, h7⟩ := h
  cases o with
  | function f => exact ⟨⟨l1 ++ [f], by simp [Op.run, h1]⟩, ⟨l2, h2⟩, ⟨l3, h3⟩, ⟨l4, h4⟩, ⟨l5, h5⟩, ⟨l6, h6⟩, h7⟩
  | setFunction i f =>
    have ho : m.functions.length ≤ i := ho
    refine ⟨⟨l1.set (i - m.functions.length) f, ?_⟩, ⟨l2, h2⟩, ⟨l3, h3⟩, ⟨l4, h4⟩, ⟨l5, h5⟩, ⟨l6, h6⟩, h7⟩
    simp only [Op.run, h1]
    rw [List.set_append_right _ _ ho]
  | subscript s => exact ⟨⟨l1, h1⟩, ⟨l2 ++ [s], by simp [Op.run, h2]⟩, ⟨l3, h3⟩, ⟨l4, h4⟩, ⟨l5, h5⟩, ⟨l6, h6⟩, h7⟩
  | setAlias a =>
    exact ⟨⟨l1, h1⟩, ⟨l2, h2⟩, ⟨l3 ++ [a], by simp [Op.run, h3]⟩, ⟨l4, h4⟩, ⟨l5, h5⟩, ⟨l6, h6⟩, h7⟩
  | typeDefs l => exact ⟨⟨l1, h1⟩, ⟨l2, h2⟩, ⟨l3, h3⟩, ⟨l4, h4⟩, ⟨l5, h5⟩, ⟨l6, h6⟩, h7⟩
  | trait t => exact ⟨⟨l1, h1⟩, ⟨l2, h2⟩, ⟨l3, h3⟩, ⟨l4 ++ [t], by simp [Op.run, h4]⟩, ⟨l5, h5⟩, ⟨l6, h6⟩, h7⟩
  | define d =>
    exact ⟨⟨l1, h1⟩, ⟨l2, h2⟩, ⟨l3, h3⟩, ⟨l4, h4⟩, ⟨l5 ++ [d], by simp [Op.run, h5]⟩, ⟨l6, h6⟩, h7⟩
  | projections s => exact ⟨⟨l1, h1⟩, ⟨l2, h2⟩, ⟨l3, h3⟩, ⟨l4, h4⟩, ⟨l5, h5⟩, ⟨l6, h6⟩, h7⟩
  | impls v => exact ⟨⟨l1, h1⟩, ⟨l2, h2⟩, ⟨l3, h3⟩, ⟨l4, h4⟩, ⟨l5, h5⟩, ⟨l6, h6⟩, h7⟩
  | node v => exact ⟨⟨l1, h1⟩, ⟨l2, h2⟩, ⟨l3, h3⟩, ⟨l4, h4⟩, ⟨l5, h5⟩, ⟨l6 ++ [v], by simp [Op.run, h6]⟩, h7⟩
  | deps s => exact ⟨⟨l1, h1⟩, ⟨l2, h2⟩, ⟨l3, h3⟩, ⟨l4, h4⟩, ⟨l5, h5⟩, ⟨l6, h6⟩, h7⟩

theorem Ext.runAll {m : Module V} (ops : List (Op V)) : ∀ {m' : Module V}, Ext m m' →
    (∀ o ∈ ops, o.Fresh m.functions.length) → Ext m (ops.foldl Op.run m') := by
  induction ops with
  | nil => intro m' h _; exact h
  | cons o ops ih =>
    intro m' h ho
    exact ih (h.run (ho o (by simp))) fun o' h' => ho o' (by simp [h'])

/-- What is captured after an extension gives the extension when applied. -/
theorem apply_capture {C : Codec V} (hC : C.Lawful) {m m' : Module V} (h : Ext m m') {s : Saved C}
    (hs : capture C (Shape.of m) m' = some s) : apply s m = some m' := by
  obtain ⟨⟨l1, h1⟩, ⟨l2, h2⟩, ⟨l3, h3⟩, ⟨l4, h4⟩, ⟨l5, h5⟩, ⟨l6, h6⟩, h7⟩ := h
  have e3 : m'.aliases.entries = m.aliases.entries ++ l3 := by rw [h3, foldl_set_entries]
  have e5 : m'.defs.data = m.defs.data ++ l5 := by rw [h5, foldl_insert_data]
  simp only [capture] at hs
  split at hs
  · cases hs
  have d1 : m'.functions.drop (Shape.of m).functions = l1 := by rw [h1]; exact List.drop_left
  have d2 : m'.subscripts.drop (Shape.of m).subscripts = l2 := by rw [h2]; exact List.drop_left
  have d3 : m'.aliases.entries.drop (Shape.of m).aliases = l3 := by rw [e3]; exact List.drop_left
  have d4 : m'.traits.drop (Shape.of m).traits = l4 := by rw [h4]; exact List.drop_left
  have d5 : m'.defs.data.drop (Shape.of m).defs = l5 := by rw [e5]; exact List.drop_left
  have d6 : m'.hir.drop (Shape.of m).hir = l6 := by rw [h6]; exact List.drop_left
  rw [d1, d2, d3, d4, d5, d6] at hs
  simp only [Option.bind_eq_bind, Option.bind_eq_some_iff, Option.pure_def, Option.some.injEq] at hs
  obtain ⟨f1, g1, f2, g2, f3, g3, f4, g4, f5, g5, f6, g6, f7, g7, f8, g8, rfl⟩ := hs
  have k1 := mapM_dec (dec := C.dec) (fun v s hv => by
    split at hv
    · cases hv
    · exact hC.val v s hv) _ _ g1
  have k2 := mapM_dec hC.val _ _ g2
  have k3 := mapM_dec hC.als _ _ g3
  have k4 := mapM_dec hC.val _ _ g4
  have k5 := mapM_dec hC.val _ _ g5
  have k6 := mapM_dec hC.proj _ _ g6
  have k7 := hC.val _ _ g7
  have k8 := mapM_dec hC.val _ _ g8
  have n8 := mapM_length _ _ g8
  have hm : m' = Module.mk (m.functions ++ l1) (m.subscripts ++ l2) (l3.foldl Aliases.set m.aliases)
      m'.typeDefs (m.traits ++ l4) (l5.foldl Defs.insert m.defs)
      (m'.projections.sort (· ≤ ·)).toFinset m'.impls (m.hir ++ l6) (m'.deps.sort (· ≤ ·)).toFinset
      m.rest := by
    cases m'
    simp only [Finset.sort_toFinset] at *
    subst h1 h2 h3 h4 h5 h6 h7
    rfl
  have hlen : ¬ (m.hir.length ≠ (Shape.of m).hir ∨ (Shape.of m').hir ≠ (Shape.of m).hir + f8.length) := by
    simp [Shape.of, h6, n8]
  simp only [apply, ne_eq, not_true_eq_false, if_false, k1, k2, k3, k4, k5, k6, k7, k8,
    Option.bind_eq_bind, Option.bind_some]
  rw [if_neg (by simpa using hlen)]
  simp only [← hm]
  simp

theorem record_failed (C : Codec V) (steps : List (Step V)) : ∀ m cs m' cs' e,
    record C steps (m, cs, true) = (m', cs', e) → e = true ∧ cs' = cs := by
  induction steps with
  | nil => intro m cs m' cs' e h; cases h; exact ⟨rfl, rfl⟩
  | cons st t ih =>
    intro m cs m' cs' e h
    cases st with
    | native f => exact ih _ _ _ _ _ h
    | source c =>
      simp only [record, if_true] at h
      exact ih _ _ _ _ _ h

/-- A recording without errors is the compilation, and its checkpoints replay it. -/
theorem record_replay {C : Codec V} (hC : C.Lawful) (steps : List (Step V))
    (hf : ∀ c, Step.source c ∈ steps → ∀ m, ∀ o ∈ c m, o.Fresh m.functions.length) :
    ∀ m cs m' cs', record C steps (m, cs, false) = (m', cs', false) →
      m' = build steps m ∧ ∃ new, cs' = cs ++ new ∧
        ∀ more, replay steps (m, new ++ more, false) = (m', more, false) := by
  induction steps with
  | nil =>
    intro m cs m' cs' h
    cases h
    exact ⟨rfl, [], by simp, fun more => rfl⟩
  | cons st t ih =>
    have ih := ih fun c hc => hf c (by simp [hc])
    intro m cs m' cs' h
    cases st with
    | native f => exact ih _ _ _ _ h
    | source c =>
      simp only [record, Bool.false_eq_true, if_false] at h
      split at h
      · rename_i s hs
        obtain ⟨h1, new, rfl, h3⟩ := ih _ _ _ _ h
        refine ⟨h1, s :: new, by simp, fun more => ?_⟩
        have := apply_capture hC (Ext.runAll (c m) (Ext.refl m) (hf c (by simp) m)) hs
        simp only [List.cons_append, replay, Bool.false_eq_true, if_false, this]
        exact h3 more
      · exact absurd (record_failed C t _ _ _ _ _ h).1 (by simp)

end Ferlium.Checkpoint
