import Verif.Proofs.SessionTerm
import Mathlib.Tactic

/-!
C31, C32, C43, C45, C49, C50: the module registry of a compiler session.

The compiler proper is the parameter `emit`; the only assumption on it is that the dependencies it reports are registered
modules.  Histories start from the empty registry and interleave registrations of host modules, compilations of new and
existing modules, and source updates, in any order, with any failures.
-/
namespace Ferlium.Session

variable {T U : Type}

/-- The compiler reports only registered modules as dependencies. -/
def Sane (emit : T → U → List (Option (Rev T U)) → Nat → Option (List Nat)) : Prop :=
  ∀ t u v i deps, emit t u v i = some deps → ∀ d ∈ deps, d < v.length

/-- `Hist emit s reg`: the session `s` is the result of some history of operations, and `reg` gives, for each module that has
a source, the text and the imports the user gave last. -/
inductive Hist [DecidableEq T] [Inhabited U] (emit : T → U → List (Option (Rev T U)) → Nat → Option (List Nat)) :
    State T U → (Nat → Option (T × U)) → Prop
  | empty : Hist emit ⟨[], []⟩ (fun _ => none)
  | register {s reg} (key : Nat) (deps : List Nat) : Hist emit s reg → (∀ d ∈ deps, FreshAt s.mods d) →
      Hist emit (registerRaw s key deps) reg
  | compile {s s' reg} (fuel : Nat) (target : Option Nat) (text : T) (uses : U) : Hist emit s reg →
      (∀ id, target = some id → id < s.mods.length) → compileTo emit fuel s target text uses = .ok s' →
      Hist emit s' (Function.update reg (target.getD s.mods.length) (some (text, uses)))
  | update {s s' reg} (fuel : Nat) (id : Nat) (text : T) : Hist emit s reg → updateSource emit fuel s id text = .ok s' →
      Hist emit s' (Function.update reg id ((reg id).map fun p => (text, p.2)))

/-- What a history guarantees. -/
structure Ok (s : State T U) (reg : Nat → Option (T × U)) : Prop where
  inv : Inv s.sources (fun _ => False) s.mods
  regd : ∀ (x : Nat) (e : Entry T U), s.mods[x]? = some e →
    (e.src.map fun src => (s.sources[src.sourceId]?, src.uses)) = (reg x).map fun p => (some p.1, p.2)
  out : ∀ x, s.mods.length ≤ x → reg x = none

theorem addOrReuse_spec [DecidableEq T] (sources : List T) (cur : Option (SrcInfo U))
    (hc : ∀ src, cur = some src → src.sourceId < sources.length) (text : T) :
    ∃ l i v, addOrReuse sources cur text = (sources ++ l, i, v) ∧ (sources ++ l)[i]? = some text ∧
      (cur = none → v = 0) ∧
      (∀ src t, cur = some src → sources[src.sourceId]? = some t → v = if t = text then src.version else src.version + 1) := by
  unfold addOrReuse
  cases cur with
  | none => exact ⟨[text], sources.length, 0, rfl, by simp, by simp, by simp⟩
  | some src =>
    by_cases h : sources[src.sourceId]? = some text
    · refine ⟨[], src.sourceId, src.version, by simp [h], by simpa using h, by simp, ?_⟩
      rintro src' t hs ht
      cases hs
      rw [h] at ht; cases ht
      simp
    · refine ⟨[text], sources.length, src.version + 1, by simp [h], by simp, by simp, ?_⟩
      rintro src' t hs ht
      cases hs
      rw [if_neg]
      rintro rfl
      exact h ht

theorem get_append {l l' : List T} {i : Nat} (hi : i < l.length) : (l ++ l')[i]? = l[i]? := List.getElem?_append_left hi

/-- One compilation keeps the guarantees. -/
theorem ok_step [DecidableEq T] [Inhabited U] {emit : T → U → List (Option (Rev T U)) → Nat → Option (List Nat)} (hemit : Sane emit)
    {s : State T U} {reg : Nat → Option (T × U)} (h : Ok s reg) {target : Option Nat}
    (ht : ∀ id, target = some id → id < s.mods.length) {l : List T} {i v : Nat} {text : T} (hi : (s.sources ++ l)[i]? = some text)
    {fuel : Nat} {uses : U} :
    compile emit (s.sources ++ l) fuel s.mods target i v uses ≠ .error .panic ∧
    ∀ mods', compile emit (s.sources ++ l) fuel s.mods target i v uses = .ok mods' →
      Ok ⟨s.sources ++ l, mods'⟩ (Function.update reg (target.getD s.mods.length) (some (text, uses))) ∧
      Steps (target.getD s.mods.length) ⟨i, v, uses⟩ s.mods mods' := by
  obtain ⟨h1, h2⟩ := compile_spec hemit fuel (h.inv.sources l) ht (List.getElem?_eq_some_iff.1 hi).1 v uses
  refine ⟨h1, ?_⟩
  intro mods' hm
  obtain ⟨h3, h4⟩ := h2 mods' hm
  refine ⟨⟨h3.mono (by simp), ?_, ?_⟩, h4⟩
  · intro x e he
    simp only at he ⊢
    by_cases hx : x = target.getD s.mods.length
    · subst hx
      obtain ⟨em, g1, g2, -⟩ := h4.self
      rw [he] at g1; cases g1
      simp [g2, hi]
    · rw [Function.update_of_ne hx]
      have hxl : x < s.mods.length := by
        have h5 := (List.getElem?_eq_some_iff.1 he).1
        rw [h4.len] at h5
        cases target with
        | none => simp at hx h5; omega
        | some id => have := ht id rfl; simp at hx h5; omega
      obtain ⟨e0, he0⟩ : ∃ e0, s.mods[x]? = some e0 := ⟨_, List.getElem?_eq_getElem hxl⟩
      obtain ⟨e', g1, g2, -⟩ := h4.others x e0 hx he0
      rw [he] at g1; cases g1
      rw [g2, ← h.regd x e0 he0]
      cases hsrc : e0.src with
      | none => rfl
      | some src => simp [get_append (h.inv.srcs x e0 src he0 hsrc)]
  · intro x hx
    simp only at hx
    rw [h4.len] at hx
    rw [Function.update_of_ne (by omega)]
    exact h.out x (by omega)

theorem ok_compileTo [DecidableEq T] [Inhabited U] {emit : T → U → List (Option (Rev T U)) → Nat → Option (List Nat)}
    (hemit : Sane emit) {s : State T U} {reg : Nat → Option (T × U)} (h : Ok s reg) {target : Option Nat}
    (ht : ∀ id, target = some id → id < s.mods.length) (fuel : Nat) (text : T) (uses : U) :
    ∃ l i v, (s.sources ++ l)[i]? = some text ∧
      ((target.bind (fun id => s.mods[id]?)).bind Entry.src = none → v = 0) ∧
      (∀ src t, (target.bind (fun id => s.mods[id]?)).bind Entry.src = some src → s.sources[src.sourceId]? = some t →
        v = if t = text then src.version else src.version + 1) ∧
      compileTo emit fuel s target text uses ≠ .error .panic ∧
      ∀ s', compileTo emit fuel s target text uses = .ok s' → s'.sources = s.sources ++ l ∧
        Ok s' (Function.update reg (target.getD s.mods.length) (some (text, uses))) ∧
        Steps (target.getD s.mods.length) ⟨i, v, uses⟩ s.mods s'.mods := by
  obtain ⟨l, i, v, h1, h2, h3, h4⟩ := addOrReuse_spec s.sources ((target.bind (fun id => s.mods[id]?)).bind Entry.src)
    (by
      intro src hs
      rw [Option.bind_eq_some_iff] at hs
      obtain ⟨e, he, hes⟩ := hs
      rw [Option.bind_eq_some_iff] at he
      obtain ⟨id, -, he⟩ := he
      exact h.inv.srcs id e src he hes) text
  refine ⟨l, i, v, h2, h3, h4, ?_⟩
  obtain ⟨h5, h6⟩ := ok_step hemit h ht h2 (fuel := fuel) (v := v) (uses := uses)
  have hc : compileTo emit fuel s target text uses = (do
      let mods ← Session.compile emit (s.sources ++ l) fuel s.mods target i v uses
      pure ⟨s.sources ++ l, mods⟩) := by
    unfold compileTo
    simp only [h1]
  rw [hc]
  cases hm : Session.compile emit (s.sources ++ l) fuel s.mods target i v uses with
  | error f =>
    refine ⟨?_, by intro s' hs'; cases hs'⟩
    intro hcon
    rw [hm] at h5
    apply h5
    cases hcon; rfl
  | ok mods' =>
    refine ⟨(by intro hcon; cases hcon), ?_⟩
    intro s' hs'
    cases hs'
    exact ⟨rfl, h6 mods' hm⟩

/-- An update of a module with a source is a compilation of it with the imports it has. -/
theorem updateSource_eq [DecidableEq T] [Inhabited U] (emit : T → U → List (Option (Rev T U)) → Nat → Option (List Nat)) (fuel : Nat)
    (s : State T U) (id : Nat) (text : T) :
    updateSource emit fuel s id text = match (s.mods[id]?).bind Entry.src with
      | none => .ok s
      | some src => compileTo emit fuel s (some id) text src.uses := by
  unfold updateSource compileTo
  cases he : s.mods[id]? with
  | none => rfl
  | some e =>
    cases hs : e.src with
    | none => simp [hs]; rfl
    | some src => simp [he, hs]

theorem Hist.ok [DecidableEq T] [Inhabited U] {emit : T → U → List (Option (Rev T U)) → Nat → Option (List Nat)} (hemit : Sane emit)
    {s : State T U} {reg : Nat → Option (T × U)} (h : Hist emit s reg) : Ok s reg := by
  induction h with
  | empty =>
    refine ⟨⟨by simp, by simp, ?_, by simp, by simp, by simp⟩, by simp, by simp⟩
    intro x hx
    simpa using transGen_len hx
  | @register s reg key deps _ hd ih =>
    have hlt : ∀ d ∈ deps, d < s.mods.length := by
      intro d hdm
      obtain ⟨e, he, -⟩ := hd d hdm
      exact (List.getElem?_eq_some_iff.1 he).1
    set e0 : Entry T U := ⟨none, some (.raw key (against s.mods deps)), false, deps, 0, false, view s.mods⟩ with he0
    have hput : (registerRaw s key deps).mods = put s.mods s.mods.length e0 := by simp [registerRaw, put, he0]
    have hself : (put s.mods s.mods.length e0)[s.mods.length]? = some e0 := put_self (le_refl _) e0
    have hne := fun (x : Nat) (hx : x ≠ s.mods.length) => put_ne (le_refl s.mods.length) e0 hx
    have hgood : ∀ e : Entry T U, GoodE s.sources s.mods e → GoodE s.sources (put s.mods s.mods.length e0) e := by
      intro e hg
      refine hg.congr (fun _ _ h => h) ?_
      intro d hdm ed hed heds
      exact ⟨ed, by rw [hne d (by have := (List.getElem?_eq_some_iff.1 hed).1; omega)]; exact hed, heds, rfl⟩
    have hfr : ∀ d, d < s.mods.length → FreshAt (put s.mods s.mods.length e0) d → FreshAt s.mods d := by
      rintro d hdl ⟨e, he, hes⟩
      rw [hne d (by omega)] at he
      exact ⟨e, he, hes⟩
    refine ⟨?_, ?_, ?_⟩
    · rw [hput]
      show Inv s.sources _ _
      constructor
      · intro x e hg d hdm
        rw [put_length (le_refl _)]
        by_cases hx : x = s.mods.length
        · subst hx; rw [hself] at hg; cases hg
          have := hlt d hdm; omega
        · rw [hne x hx] at hg
          have := ih.inv.range x e hg d hdm; omega
      · intro x e src hg hs
        by_cases hx : x = s.mods.length
        · subst hx; rw [hself] at hg; cases hg; simp [he0] at hs
        · rw [hne x hx] at hg
          exact ih.inv.srcs x e src hg hs
      · refine acyclic_put (le_refl _) ih.inv.acyclic ?_
        intro hc
        obtain ⟨w, -, hw⟩ := Relation.TransGen.tail'_iff.1 hc
        obtain ⟨e, he, hdm⟩ := hw
        by_cases hx : w = s.mods.length
        · subst hx; rw [hself] at he; cases he
          have := hlt _ hdm; omega
        · rw [hne w hx] at he
          have := ih.inv.range w e he _ hdm; omega
      · intro x e hg hs
        by_cases hx : x = s.mods.length
        · subst hx; rw [hself] at hg; cases hg
          exact hgood e0 ⟨hd, ⟨key, rfl⟩⟩
        · rw [hne x hx] at hg
          exact hgood e (ih.inv.safe x e hg hs)
      · intro x e hg hs hsrc hf hdm
        by_cases hx : x = s.mods.length
        · subst hx; rw [hself] at hg; cases hg; simp [he0] at hs
        · rw [hne x hx] at hg
          exact ih.inv.live x e hg hs hsrc hf (fun d hd' => hfr d (ih.inv.range x e hg d hd') (hdm d hd'))
      · intro x e hg hsrc d hdm ed hed heds
        by_cases hx : x = s.mods.length
        · subst hx; rw [hself] at hg; cases hg; simp [he0] at hsrc
        · rw [hne x hx] at hg
          have hdl := ih.inv.range x e hg d hdm
          rw [hne d (by omega)] at hed
          exact ih.inv.seen x e hg hsrc d hdm ed hed heds
    · intro x e hg
      rw [hput] at hg
      show (e.src.map fun src => (s.sources[src.sourceId]?, src.uses)) = _
      by_cases hx : x = s.mods.length
      · subst hx; rw [hself] at hg; cases hg
        rw [ih.out _ (le_refl _)]; rfl
      · rw [hne x hx] at hg
        exact ih.regd x e hg
    · intro x hx
      rw [hput, put_length (le_refl _)] at hx
      exact ih.out x (by omega)
  | @compile s s' reg fuel target text uses _ ht hc ih =>
    obtain ⟨l, i, v, -, -, -, -, h1⟩ := ok_compileTo hemit ih ht fuel text uses
    exact (h1 s' hc).2.1
  | @update s s' reg fuel id text _ hu ih =>
    rw [updateSource_eq] at hu
    cases he : s.mods[id]? with
    | none =>
      simp only [he, Option.bind_none] at hu
      cases hu
      rw [ih.out id (by simpa using he)]
      rw [Option.map_none, Function.update_eq_self_iff.2 (ih.out id (by simpa using he)).symm]
      exact ih
    | some e =>
      have hreg := ih.regd id e he
      cases hs : e.src with
      | none =>
        simp only [he, Option.bind_some, hs] at hu
        cases hu
        have : reg id = none := by rw [hs] at hreg; simpa using hreg.symm
        rw [this, Option.map_none, Function.update_eq_self_iff.2 this.symm]
        exact ih
      | some src =>
        simp only [he, Option.bind_some, hs] at hu
        obtain ⟨l, i, v, -, -, -, -, h1⟩ := ok_compileTo hemit ih (target := some id)
          (by intro id' hid; cases hid; exact (List.getElem?_eq_some_iff.1 he).1) fuel text src.uses
        have h2 := (h1 s' hu).2.1
        have : reg id = some ((reg id).get (by rw [hs] at hreg; cases hr : reg id with | none => simp [hr] at hreg | some _ => rfl)) := by
          simp
        rw [this, Option.map_some]
        have huses : ((reg id).get (by rw [hs] at hreg; cases hr : reg id with | none => simp [hr] at hreg | some _ => rfl)).2 = src.uses := by
          rw [hs, this] at hreg
          simp only [Option.map_some, Option.some.injEq, Prod.mk.injEq] at hreg
          exact hreg.2.symm
        rw [huses]
        exact h2

/-! ### C31 -/

/-- C31: a fresh module has a revision, all its direct and transitive dependencies are fresh, and its revision was made from
the text and imports the user gave last and from the current revisions of its dependencies. -/
theorem C31_fresh_is_consistent [DecidableEq T] [Inhabited U]
    {emit : T → U → List (Option (Rev T U)) → Nat → Option (List Nat)} (hemit : Sane emit)
    {s : State T U} {reg : Nat → Option (T × U)} (h : Hist emit s reg) (x : Nat) (e : Entry T U) (hx : s.mods[x]? = some e)
    (hs : e.stale = false) :
    e.revision.isSome = true ∧
    (∀ y, Relation.TransGen (DepR s.mods) x y → FreshAt s.mods y) ∧
    (∀ text uses, reg x = some (text, uses) →
      e.revision = some (.built text uses (e.deps.map fun d => (d, (s.mods[d]?).bind Entry.revision)))) ∧
    (reg x = none → ∃ key, e.revision = some (.raw key (e.deps.map fun d => (d, (s.mods[d]?).bind Entry.revision)))) := by
  have hok := h.ok hemit
  have hg := hok.inv.safe x e hx hs
  refine ⟨hg.revision_some, ?_, ?_, ?_⟩
  · intro y hy
    induction hy with
    | single hb =>
      obtain ⟨e', h1, h2⟩ := hb
      rw [hx] at h1; cases h1
      exact hg.fresh _ h2
    | tail _ hbc ih =>
      obtain ⟨e', h1, h2⟩ := hbc
      obtain ⟨e2, h3, h4⟩ := ih
      rw [h1] at h3; cases h3
      exact (hok.inv.safe _ e' h1 h4).fresh _ h2
  · intro text uses hr
    have h1 := hok.regd x e hx
    rw [hr] at h1
    have h2 := hg.rev
    cases hsrc : e.src with
    | none => simp [hsrc] at h1
    | some src =>
      simp only [hsrc, Option.map_some, Option.some.injEq, Prod.mk.injEq] at h1 h2
      obtain ⟨t, h3, h4⟩ := h2
      rw [h1.1] at h3; cases h3
      rw [h4, h1.2]; rfl
  · intro hr
    have h1 := hok.regd x e hx
    rw [hr] at h1
    have h2 := hg.rev
    cases hsrc : e.src with
    | none => simp only [hsrc] at h2; exact h2
    | some src => simp [hsrc] at h1

/-! ### C49 -/

/-- C49: the recorded dependencies never form a cycle and always name registered modules, and no operation on a registered
target panics. -/
theorem C49_dependencies_acyclic [DecidableEq T] [Inhabited U]
    {emit : T → U → List (Option (Rev T U)) → Nat → Option (List Nat)} (hemit : Sane emit)
    {s : State T U} {reg : Nat → Option (T × U)} (h : Hist emit s reg) :
    (∀ x, ¬ Relation.TransGen (DepR s.mods) x x) ∧ (∀ x y, DepR s.mods x y → y < s.mods.length) ∧
    (∀ fuel target text uses, (∀ id, target = some id → id < s.mods.length) →
      compileTo emit fuel s target text uses ≠ .error .panic) ∧
    (∀ fuel id text, updateSource emit fuel s id text ≠ .error .panic) := by
  have hok := h.ok hemit
  refine ⟨hok.inv.acyclic, ?_, ?_, ?_⟩
  · rintro x y ⟨e, h1, h2⟩
    exact hok.inv.range x e h1 y h2
  · intro fuel target text uses ht
    obtain ⟨l, i, v, -, -, -, h1, -⟩ := ok_compileTo hemit hok ht fuel text uses
    exact h1
  · intro fuel id text
    rw [updateSource_eq]
    cases he : s.mods[id]? with
    | none => simp
    | some e =>
      cases hs : e.src with
      | none => simp [hs]
      | some src =>
        simp only [Option.bind_some, hs]
        obtain ⟨l, i, v, -, -, -, h1, -⟩ := ok_compileTo hemit hok (target := some id)
          (by intro id' hid; cases hid; exact (List.getElem?_eq_some_iff.1 he).1) fuel text src.uses
        exact h1

/-! ### C32 -/

/-- C32: a module that is stale has itself failed to compile, or depends, directly or not, on a stale module that failed or that
has no source.  In other words, once the causes are repaired, everything that depends on them is fresh. -/
theorem C32_stale_has_cause [DecidableEq T] [Inhabited U]
    {emit : T → U → List (Option (Rev T U)) → Nat → Option (List Nat)} (hemit : Sane emit)
    {s : State T U} {reg : Nat → Option (T × U)} (h : Hist emit s reg) (x : Nat) (e : Entry T U) (hx : s.mods[x]? = some e)
    (hs : e.stale = true) :
    ∃ y ey, Relation.ReflTransGen (DepR s.mods) x y ∧ s.mods[y]? = some ey ∧ ey.stale = true ∧
      (ey.failed = true ∨ reg y = none) := by
  have hok := h.ok hemit
  obtain ⟨y, ey, h1, h2, h3, h4⟩ := stale_cause hok.inv x e hx hs
  refine ⟨y, ey, h1, h2, h3, h4.imp id ?_⟩
  intro hsrc
  have := hok.regd y ey h2
  rw [hsrc] at this
  simpa using this.symm

/-- C32: recompilations keep the imports the user gave: every module keeps the text and imports of its last registration. -/
theorem C32_imports_kept [DecidableEq T] [Inhabited U]
    {emit : T → U → List (Option (Rev T U)) → Nat → Option (List Nat)} (hemit : Sane emit)
    {s : State T U} {reg : Nat → Option (T × U)} (h : Hist emit s reg) (x : Nat) (e : Entry T U) (hx : s.mods[x]? = some e) :
    (e.src.map fun src => (s.sources[src.sourceId]?, src.uses)) = (reg x).map fun p => (some p.1, p.2) :=
  (h.ok hemit).regd x e hx

/-- C32, partial: the last attempt to compile a module, failed or not, saw the current revision of each of its recorded
dependencies that is fresh.  Missing: the dependencies of a failed attempt are not recorded, see the next theorem. -/
theorem C32_last_attempt_saw_current_revisions_partial [DecidableEq T] [Inhabited U]
    {emit : T → U → List (Option (Rev T U)) → Nat → Option (List Nat)} (hemit : Sane emit)
    {s : State T U} {reg : Nat → Option (T × U)} (h : Hist emit s reg) (x y : Nat) (e ey : Entry T U) (hx : s.mods[x]? = some e)
    (hr : (reg x).isSome = true) (hy : y ∈ e.deps) (hey : s.mods[y]? = some ey) (hf : ey.stale = false) :
    e.seen[y]? = some ey.revision := by
  have hok := h.ok hemit
  have hsrc : e.src.isSome = true := by
    have := congrArg Option.isSome (hok.regd x e hx)
    simpa [hr] using this
  exact (hok.inv.seen x e hx hsrc y hy ey hey hf).resolve_right id

/-! ### C43 -/

/-- C43: the modules affected by a change are exactly the modules that depend on it, directly or not, each once, and the query
ends; for any registry, even one with cyclic dependencies. -/
theorem C43_affected_exact (mods : List (Entry T U)) (id : Nat) :
    ∃ l, affectedBy mods id = some l ∧ l.Nodup ∧ ∀ x, x ∈ l ↔ Relation.TransGen (DepR mods) x id :=
  affectedBy_spec mods id

/-! ### C45 -/

/-- C45: a compilation gives its module the new text and imports, version 0 when it had no source, the same version when the
text is the same and the next version otherwise, and a larger attempt number; every other module keeps its source, version,
imports and text, and its attempt number does not decrease. -/
theorem C45_versions [DecidableEq T] [Inhabited U]
    {emit : T → U → List (Option (Rev T U)) → Nat → Option (List Nat)} (hemit : Sane emit)
    {s s' : State T U} {reg : Nat → Option (T × U)} (h : Hist emit s reg) (fuel : Nat) (target : Option Nat)
    (ht : ∀ id, target = some id → id < s.mods.length) (text : T) (uses : U)
    (hc : compileTo emit fuel s target text uses = .ok s') :
    (∃ e' src', s'.mods[target.getD s.mods.length]? = some e' ∧ e'.src = some src' ∧
      s'.sources[src'.sourceId]? = some text ∧ src'.uses = uses ∧
      (reg (target.getD s.mods.length) = none → src'.version = 0) ∧
      (∀ e, s.mods[target.getD s.mods.length]? = some e → e.attempt < e'.attempt ∧
        ∀ src t, e.src = some src → s.sources[src.sourceId]? = some t →
          src'.version = if t = text then src.version else src.version + 1)) ∧
    (∀ x e, x ≠ target.getD s.mods.length → s.mods[x]? = some e → ∃ e', s'.mods[x]? = some e' ∧ e'.src = e.src ∧
      e.attempt ≤ e'.attempt ∧ ∀ src, e.src = some src → s'.sources[src.sourceId]? = s.sources[src.sourceId]?) := by
  have hok := h.ok hemit
  obtain ⟨l, i, v, h1, h2, h3, -, h4⟩ := ok_compileTo hemit hok ht fuel text uses
  obtain ⟨h5, -, h6⟩ := h4 s' hc
  obtain ⟨em, g1, g2, g3⟩ := h6.self
  have hcur : ∀ e, s.mods[target.getD s.mods.length]? = some e →
      (target.bind (fun id => s.mods[id]?)).bind Entry.src = e.src := by
    intro e he
    cases target with
    | none => simp at he
    | some id => simp only [Option.getD_some] at he; simp [he]
  refine ⟨⟨em, _, g1, g2, by rw [h5]; exact h1, rfl, ?_, ?_⟩, ?_⟩
  · intro hr
    apply h2
    cases target with
    | none => rfl
    | some id =>
      simp only [Option.getD_some] at hr
      have hid := ht id rfl
      have := hok.regd id s.mods[id] (List.getElem?_eq_getElem hid)
      rw [hr] at this
      simp only [Option.map_none, Option.map_eq_none_iff] at this
      simp [List.getElem?_eq_getElem hid, this]
  · intro e he
    refine ⟨g3 e he, ?_⟩
    intro src t hs htx
    exact h3 src t (by rw [hcur e he]; exact hs) htx
  · intro x e hx he
    obtain ⟨e', k1, k2, k3⟩ := h6.others x e hx he
    refine ⟨e', k1, k2, k3, ?_⟩
    intro src hs
    rw [h5]
    exact get_append (hok.inv.srcs x e src he hs)

/-- C45: updating the text of a module is compiling it again with the imports it was registered with; the update of an unknown
module or of one without source changes nothing. -/
theorem C45_update_is_recompile [DecidableEq T] [Inhabited U]
    {emit : T → U → List (Option (Rev T U)) → Nat → Option (List Nat)} (hemit : Sane emit)
    {s : State T U} {reg : Nat → Option (T × U)} (h : Hist emit s reg) (fuel : Nat) (id : Nat) (text : T) :
    updateSource emit fuel s id text = match reg id with
      | none => .ok s
      | some p => compileTo emit fuel s (some id) text p.2 := by
  have hok := h.ok hemit
  rw [updateSource_eq]
  cases he : s.mods[id]? with
  | none =>
    rw [hok.out id (by simpa using he)]; rfl
  | some e =>
    have := hok.regd id e he
    cases hs : e.src with
    | none =>
      rw [hs] at this
      have : reg id = none := by simpa using this.symm
      simp [this, hs]
    | some src =>
      rw [hs] at this
      cases hr : reg id with
      | none => simp [hr] at this
      | some p =>
        simp only [hr, Option.map_some, Option.some.injEq, Prod.mk.injEq] at this
        simp [hs, this.2]

/-! ### C50 -/

/-- C50: every compilation or update returns, whatever the compiler answers: the recompilations nest at most as deep as there are
modules, and the recursion budget of the model does not matter beyond that. -/
theorem C50_recompilation_terminates [DecidableEq T] [Inhabited U]
    {emit : T → U → List (Option (Rev T U)) → Nat → Option (List Nat)} (hemit : Sane emit)
    {s : State T U} {reg : Nat → Option (T × U)} (h : Hist emit s reg) :
    (∀ target text uses, (∀ id, target = some id → id < s.mods.length) →
      ∃ s', ∀ fuel, s.mods.length < fuel → compileTo emit fuel s target text uses = .ok s') ∧
    (∀ id text, ∃ s', ∀ fuel, s.mods.length < fuel → updateSource emit fuel s id text = .ok s') := by
  have hok := h.ok hemit
  have key : ∀ target text uses, (∀ id, target = some id → id < s.mods.length) →
      ∃ s', ∀ fuel, s.mods.length < fuel → compileTo emit fuel s target text uses = .ok s' := by
    intro target text uses ht
    obtain ⟨l, i, v, h1, h2, -, -⟩ := addOrReuse_spec s.sources ((target.bind (fun id => s.mods[id]?)).bind Entry.src)
      (by
        intro src hs
        rw [Option.bind_eq_some_iff] at hs
        obtain ⟨e, he, hes⟩ := hs
        rw [Option.bind_eq_some_iff] at he
        obtain ⟨id, -, he⟩ := he
        exact hok.inv.srcs id e src he hes) text
    obtain ⟨mods', h3, -⟩ := compile_term hemit (s.mods.length + 1) (hok.inv.sources l) ht
      (List.getElem?_eq_some_iff.1 h2).1 v uses (Nat.lt_succ_of_le (card_dependents _ _))
    refine ⟨⟨s.sources ++ l, mods'⟩, ?_⟩
    intro fuel hfuel
    obtain ⟨k, rfl⟩ : ∃ k, fuel = s.mods.length + 1 + k := ⟨fuel - (s.mods.length + 1), by omega⟩
    unfold compileTo
    simp only [h1]
    rw [compile_fuel _ _ _ _ _ _ _ h3 k]
    rfl
  refine ⟨key, ?_⟩
  intro id text
  cases he : (s.mods[id]?).bind Entry.src with
  | none => exact ⟨s, fun fuel _ => by rw [updateSource_eq, he]⟩
  | some src =>
    obtain ⟨e, he1, he2⟩ := Option.bind_eq_some_iff.1 he
    obtain ⟨s', hs'⟩ := key (some id) text src.uses
      (by intro id' hid; cases hid; exact (List.getElem?_eq_some_iff.1 he1).1)
    exact ⟨s', fun fuel hf => by rw [updateSource_eq, he]; exact hs' fuel hf⟩

/-! ### A concrete history, and a new module that is never repaired -/

/-- A compiler for three texts: 0 and 1 import nothing; 2 imports module 0 and needs text 1 of it. -/
def toyEmit : Nat → Unit → List (Option (Rev Nat Unit)) → Nat → Option (List Nat)
  | 2, _, some (.built 1 _ _) :: _, _ => some [0]
  | 2, _, _, _ => none
  | _, _, _, _ => some []

theorem toyEmit_sane : Sane toyEmit := by
  intro t u v i deps h d hd
  unfold toyEmit at h
  split at h
  · cases h; simp at hd; subst hd; simp
  · simp at h
  · cases h; simp at hd

open Ferlium.Graph in
theorem no_cycle_empty (n : Nat) (hn : n = 1 ∨ n = 2) : findCycleFrom (List.replicate n []) 0 = some none := by
  have hE : ∀ u v, ¬ Edge (List.replicate n ([] : List Nat)) u v := by
    rintro u v ⟨l, h1, h2⟩
    have := List.mem_of_getElem? h1
    rw [List.mem_replicate] at this
    rw [this.2] at h2
    simp at h2
  obtain ⟨r, h1, -, h3⟩ := C24_cycle_search_exact (List.replicate n []) (fun u v h => absurd h (hE u v)) 0 (by rw [List.length_replicate]; omega)
  rw [h1]
  cases r with
  | none => rfl
  | some c =>
    simp only [Option.isSome_some, true_iff] at h3
    obtain ⟨v, -, hv⟩ := h3
    obtain ⟨w, -, hw⟩ := Relation.TransGen.tail'_iff.1 hv
    exact absurd hw (hE _ _)

/-- Module 0 with text 0. -/
def toyA (attempt : Nat) (text sourceId version : Nat) (seen : List (Option (Rev Nat Unit))) : Entry Nat Unit :=
  ⟨some ⟨sourceId, version, ()⟩, some (.built text () []), false, [], attempt, false, seen⟩

theorem toy1 : compileTo toyEmit 1 ⟨[], []⟩ none 0 () = .ok ⟨[0], [toyA 0 0 0 0 []]⟩ := by
  have h := no_cycle_empty 1 (Or.inl rfl)
  unfold compileTo Session.compile compileOne
  simp only [addOrReuse, openEntry, must, bind, Except.bind, Option.bind, List.nil_append, List.length_nil]
  simp only [toyEmit, view, cycleGraph, pure, Except.pure, List.zipIdx_nil, List.map_nil, List.nil_append, Option.isSome_none,
    Bool.false_eq_true, if_false, List.getElem?_cons_zero]
  rw [show [([] : List Nat)] = List.replicate 1 [] from rfl, h]
  rfl

/-- The failed module 1. -/
def toyB : Entry Nat Unit := ⟨some ⟨1, 0, ()⟩, none, true, [], 0, true, [some (.built 0 () [])]⟩

theorem toy2 : compileTo toyEmit 1 ⟨[0], [toyA 0 0 0 0 []]⟩ none 2 () = .ok ⟨[0, 2], [toyA 0 0 0 0 [], toyB]⟩ := rfl

theorem toy3 : updateSource toyEmit 1 ⟨[0, 2], [toyA 0 0 0 0 [], toyB]⟩ 0 1 =
    .ok ⟨[0, 2, 1], [toyA 1 1 2 1 [some .placeholder, none], toyB]⟩ := by
  have h := no_cycle_empty 2 (Or.inr rfl)
  have hn : markStale [{ toyA 0 0 0 0 [] with revision := some .placeholder }, toyB] [0] =
      some [{ toyA 0 0 0 0 [] with revision := some .placeholder }, toyB] := by
    refine markStale_noop ?_
    intro x e hx hd
    match x, hx with
    | 0, hx => cases hx; simp [toyA] at hd
    | 1, hx => cases hx; simp [toyB] at hd
    | n + 2, hx => simp at hx
  have e1 : updateSource toyEmit 1 ⟨[0, 2], [toyA 0 0 0 0 [], toyB]⟩ 0 1 = (do
      let mods ← Session.compile toyEmit [0, 2, 1] 1 [toyA 0 0 0 0 [], toyB] (some 0) 2 1 ()
      pure ⟨[0, 2, 1], mods⟩) := rfl
  rw [e1]
  have e2 : compileOne toyEmit [0, 2, 1] [toyA 0 0 0 0 [], toyB] (some 0) 2 1 () =
      .ok (0, [toyA 1 1 2 1 [some .placeholder, none], toyB], true) := by
    unfold compileOne
    simp only [openEntry, must, bind, Except.bind, List.getElem?_cons_succ, List.getElem?_cons_zero]
    have e3 : ([toyA 0 0 0 0 [], toyB].set 0 { toyA 0 0 0 0 [] with revision := some .placeholder }) =
      [{ toyA 0 0 0 0 [] with revision := some .placeholder }, toyB] := rfl
    rw [e3, hn]
    simp only [toyA, Option.isSome_some, if_true]
    have e4 : ∀ (v : List (Option (Rev Nat Unit))), toyEmit 1 () v 0 = some [] := fun v => rfl
    rw [e4]
    simp only [cycleGraph, toyB, List.zipIdx_cons, List.zipIdx_nil, List.map_cons, List.map_nil, if_true, List.append_nil]
    rw [show [([] : List Nat), (if 0 + 1 = 0 then [] else [])] = List.replicate 2 [] from rfl, h]
    rfl
  unfold Session.compile
  rw [e2]
  rfl

theorem toyHist : Hist toyEmit ⟨[0, 2, 1], [toyA 1 1 2 1 [some .placeholder, none], toyB]⟩
    (Function.update (Function.update (Function.update (fun _ => none) 0 (some (0, ()))) 1 (some (2, ()))) 0 (some (1, ()))) := by
  have h1 := Hist.compile (emit := toyEmit) 1 none 0 () Hist.empty (by simp) toy1
  have h2 := Hist.compile 1 none 2 () h1 (by simp) toy2
  have h3 := Hist.update 1 0 1 h2 toy3
  simpa [Function.update] using h3

/-- C32, violated for a module whose first compilation failed: its imports are not recorded, so it stays stale and failed after
the module it needs is repaired, although compiling it again would now succeed with every dependency fresh. -/
theorem C32_first_failure_not_repaired_violated : ∃ (s : State Nat Unit) (reg : Nat → Option (Nat × Unit)) (e : Entry Nat Unit),
    Sane toyEmit ∧ Hist toyEmit s reg ∧ s.mods[1]? = some e ∧ e.stale = true ∧ reg 1 = some (2, ()) ∧
      toyEmit 2 () (view s.mods) 1 = some [0] ∧ FreshAt s.mods 0 ∧ e.seen[0]? ≠ some (some (.built 1 () [])) :=
  ⟨_, _, toyB, toyEmit_sane, toyHist, rfl, rfl, by simp [Function.update], rfl, ⟨_, rfl, rfl⟩, by simp [toyB]⟩

example : Sane toyEmit ∧ ∃ s reg e, Hist toyEmit s reg ∧ s.mods[0]? = some e ∧ e.stale = false :=
  ⟨toyEmit_sane, _, _, _, toyHist, rfl, rfl⟩

example : ∃ s reg e, Hist toyEmit s reg ∧ s.mods[1]? = some e ∧ e.stale = true := ⟨_, _, toyB, toyHist, rfl, rfl⟩

example : ∃ s reg e src, Hist toyEmit s reg ∧ s.mods[0]? = some e ∧ e.src = some src ∧ src.version = 1 :=
  ⟨_, _, _, _, toyHist, rfl, rfl, rfl⟩

end Ferlium.Session
