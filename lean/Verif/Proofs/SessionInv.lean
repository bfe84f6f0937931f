import Verif.Proofs.Session
import Mathlib.Tactic

/-! The invariant of the module registry and its preservation by one compilation. -/
namespace Ferlium.Session

open Ferlium.Graph (Gr findCycleFrom Edge Reach WF)

variable {T U : Type}

/-- `x` records `y` as a direct dependency. -/
def DepR (mods : List (Entry T U)) (x y : Nat) : Prop := ∃ e, mods[x]? = some e ∧ y ∈ e.deps

/-- What a fresh entry promises. -/
structure GoodE (sources : List T) (mods : List (Entry T U)) (e : Entry T U) : Prop where
  fresh : ∀ d ∈ e.deps, FreshAt mods d
  rev : match e.src with
    | some src => ∃ text, sources[src.sourceId]? = some text ∧ e.revision = some (.built text src.uses (against mods e.deps))
    | none => ∃ key, e.revision = some (.raw key (against mods e.deps))

/-- Invariant of the registry; the modules in `P` are about to be recompiled. -/
structure Inv (sources : List T) (P : Nat → Prop) (mods : List (Entry T U)) : Prop where
  range : ∀ (x : Nat) (e : Entry T U), mods[x]? = some e → ∀ d ∈ e.deps, d < mods.length
  srcs : ∀ (x : Nat) (e : Entry T U) (src : SrcInfo U), mods[x]? = some e → e.src = some src → src.sourceId < sources.length
  acyclic : ∀ x, ¬ Relation.TransGen (DepR mods) x x
  safe : ∀ (x : Nat) (e : Entry T U), mods[x]? = some e → e.stale = false → GoodE sources mods e
  live : ∀ (x : Nat) (e : Entry T U), mods[x]? = some e → e.stale = true → e.src.isSome = true → e.failed = false → (∀ d ∈ e.deps, FreshAt mods d) → P x
  seen : ∀ (x : Nat) (e : Entry T U), mods[x]? = some e → e.src.isSome = true → ∀ d ∈ e.deps, ∀ ed : Entry T U, mods[d]? = some ed → ed.stale = false →
    e.seen[d]? = some ed.revision ∨ P x

/-- The invariant while `m` is being compiled. -/
structure Open (sources : List T) (P : Nat → Prop) (m : Nat) (mods : List (Entry T U)) : Prop where
  range : ∀ (x : Nat) (e : Entry T U), mods[x]? = some e → ∀ d ∈ e.deps, d < mods.length
  srcs : ∀ (x : Nat) (e : Entry T U) (src : SrcInfo U), mods[x]? = some e → e.src = some src → src.sourceId < sources.length
  acyclic : ∀ x, ¬ Relation.TransGen (DepR mods) x x
  safe : ∀ (x : Nat) (e : Entry T U), x ≠ m → mods[x]? = some e → e.stale = false → GoodE sources mods e ∧ m ∉ e.deps
  live : ∀ (x : Nat) (e : Entry T U), x ≠ m → mods[x]? = some e → e.stale = true → e.src.isSome = true → e.failed = false →
    (∀ d ∈ e.deps, FreshAt mods d ∧ d ≠ m) → P x
  seen : ∀ (x : Nat) (e : Entry T U), x ≠ m → mods[x]? = some e → e.src.isSome = true → ∀ d ∈ e.deps, d ≠ m → ∀ ed : Entry T U, mods[d]? = some ed →
    ed.stale = false → e.seen[d]? = some ed.revision ∨ P x

theorem GoodE.congr {sources sources' : List T} {mods mods' : List (Entry T U)} {e : Entry T U} (h : GoodE sources mods e)
    (hs : ∀ (i : Nat) (t : T), sources[i]? = some t → sources'[i]? = some t)
    (hd : ∀ d ∈ e.deps, ∀ ed : Entry T U, mods[d]? = some ed → ed.stale = false →
      ∃ ed', mods'[d]? = some ed' ∧ ed'.stale = false ∧ ed'.revision = ed.revision) : GoodE sources' mods' e := by
  have ha : against mods' e.deps = against mods e.deps := by
    apply List.map_congr_left
    intro d hdm
    obtain ⟨ed, h1, h2⟩ := h.fresh d hdm
    obtain ⟨ed', h3, -, h4⟩ := hd d hdm ed h1 h2
    simp [h1, h3, h4]
  refine ⟨?_, ?_⟩
  · intro d hdm
    obtain ⟨ed, h1, h2⟩ := h.fresh d hdm
    obtain ⟨ed', h3, h4, -⟩ := hd d hdm ed h1 h2
    exact ⟨ed', h3, h4⟩
  · have := h.rev
    rw [ha]
    cases hsrc : e.src with
    | none => simpa [hsrc] using this
    | some src =>
      simp only [hsrc] at this ⊢
      obtain ⟨t, h1, h2⟩ := this
      exact ⟨t, hs _ _ h1, h2⟩

theorem GoodE.revision_some {sources : List T} {mods : List (Entry T U)} {e : Entry T U} (h : GoodE sources mods e) :
    e.revision.isSome = true := by
  have := h.rev
  cases hsrc : e.src with
  | none => simp only [hsrc] at this; obtain ⟨k, hk⟩ := this; simp [hk]
  | some src => simp only [hsrc] at this; obtain ⟨t, -, hk⟩ := this; simp [hk]

theorem depR_setStale (mods : List (Entry T U)) (p : Nat → Bool) : DepR (setStale mods p) = DepR mods := by
  funext x y
  simp only [DepR, setStale_get, eq_iff_iff]
  cases mods[x]? <;> simp

theorem depR_set_same {mods : List (Entry T U)} {m : Nat} {e e' : Entry T U} (hm : mods[m]? = some e) (hd : e'.deps = e.deps) :
    DepR (mods.set m e') = DepR mods := by
  have hlt := (List.getElem?_eq_some_iff.1 hm).1
  funext x y
  simp only [DepR, eq_iff_iff]
  by_cases hx : x = m
  · subst hx; rw [List.getElem?_set_self hlt, hm]; simp [hd]
  · rw [List.getElem?_set_ne (Ne.symm hx)]

theorem transGen_len {mods : List (Entry T U)} {x y : Nat} (h : Relation.TransGen (DepR mods) x y) : x < mods.length := by
  induction h with
  | single h => obtain ⟨e, he, -⟩ := h; exact (List.getElem?_eq_some_iff.1 he).1
  | tail _ _ ih => exact ih

/-- Opening an entry whose module had a revision. -/
theorem open_mark {sources : List T} {P : Nat → Prop} {mods : List (Entry T U)} (h : Inv sources P mods) {m : Nat}
    {e : Entry T U} (hm : mods[m]? = some e) (r : Option (Rev T U)) :
    ∃ p, markStale (mods.set m { e with revision := r }) [m] = some (setStale (mods.set m { e with revision := r }) p) ∧
      Open sources P m (setStale (mods.set m { e with revision := r }) p) := by
  have hlt := (List.getElem?_eq_some_iff.1 hm).1
  obtain ⟨p, h1, h2⟩ := markStale_ok (mods.set m { e with revision := r }) m
  refine ⟨p, h1, ?_⟩
  have hget : ∀ x, x ≠ m → (mods.set m { e with revision := r })[x]? = mods[x]? := fun x hx =>
    List.getElem?_set_ne (Ne.symm hx)
  have hgetm : (mods.set m { e with revision := r })[m]? = some { e with revision := r } := List.getElem?_set_self hlt
  have hfr : ∀ y, FreshAt (mods.set m { e with revision := r }) y ↔ FreshAt mods y := by
    intro y
    simp only [FreshAt]
    by_cases hy : y = m
    · subst hy; rw [hgetm, hm]; simp
    · rw [hget y hy]
  -- a module fresh after marking, other than m
  have key : ∀ (x : Nat) (e' : Entry T U), x ≠ m → (setStale (mods.set m { e with revision := r }) p)[x]? = some e' → e'.stale = false →
      mods[x]? = some e' ∧ p x = false := by
    intro x e' hx hg hs
    rw [setStale_get, hget x hx] at hg
    cases hx' : mods[x]? with
    | none => simp [hx'] at hg
    | some ex =>
      simp only [hx', Option.map_some, Option.some.injEq] at hg
      subst hg
      simp only [Bool.or_eq_false_iff] at hs
      refine ⟨?_, hs.2⟩
      congr 1
      cases ex
      simp only at hs
      simp [hs.1, hs.2]
  have keyd : ∀ (x : Nat) (ex : Entry T U), x ≠ m → mods[x]? = some ex → ∃ e', (setStale (mods.set m { e with revision := r }) p)[x]? = some e' ∧
      e' = { ex with stale := ex.stale || p x } := by
    intro x ex hx hg
    exact ⟨_, by rw [setStale_get, hget x hx, hg]; rfl, rfl⟩
  have orig : ∀ (x : Nat) (e' : Entry T U), (setStale (mods.set m { e with revision := r }) p)[x]? = some e' →
      ∃ ex, mods[x]? = some ex ∧ e'.deps = ex.deps ∧ e'.src = ex.src ∧ e'.failed = ex.failed ∧ e'.seen = ex.seen ∧
        e'.stale = (ex.stale || p x) ∧ (x ≠ m → e'.revision = ex.revision) := by
    intro x e' hg
    rw [setStale_get] at hg
    by_cases hx : x = m
    · subst hx
      rw [hgetm] at hg
      simp only [Option.map_some, Option.some.injEq] at hg
      subst hg
      exact ⟨e, hm, rfl, rfl, rfl, rfl, rfl, fun h => absurd rfl h⟩
    · rw [hget x hx] at hg
      cases hx' : mods[x]? with
      | none => simp [hx'] at hg
      | some ex =>
        simp only [hx', Option.map_some, Option.some.injEq] at hg
        subst hg
        exact ⟨ex, rfl, rfl, rfl, rfl, rfl, rfl, fun _ => rfl⟩
  constructor
  · intro x e' hg d hd
    obtain ⟨ex, h3, h4, -⟩ := orig x e' hg
    rw [setStale_length, List.length_set]
    exact h.range x ex h3 d (h4 ▸ hd)
  · intro x e' src hg hs
    obtain ⟨ex, h3, -, h4, -⟩ := orig x e' hg
    exact h.srcs x ex src h3 (h4 ▸ hs)
  · intro x
    rw [depR_setStale, depR_set_same (e' := { e with revision := r }) hm rfl]
    exact h.acyclic x
  · intro x e' hx hg hs
    obtain ⟨h3, h4⟩ := key x e' hx hg hs
    have hgood := h.safe x e' h3 hs
    have hnm : m ∉ e'.deps := by
      intro hmd
      rcases h2.closed x e' m (by rw [hget x hx]; exact h3) hmd (Or.inl (by simp)) with hc | hc
      · rw [hs] at hc; simp at hc
      · rw [h4] at hc; simp at hc
    refine ⟨hgood.congr (fun _ _ h => h) ?_, hnm⟩
    intro d hd ed hed heds
    have hdm : d ≠ m := fun hc => hnm (hc ▸ hd)
    obtain ⟨ed', h5, h6⟩ := keyd d ed hdm hed
    refine ⟨ed', h5, ?_, by rw [h6]⟩
    rw [h6]
    simp only [Bool.or_eq_false_iff]
    refine ⟨heds, ?_⟩
    by_contra hpd
    have hpd' : p d = true := by simpa using hpd
    rcases h2.closed x e' d (by rw [hget x hx]; exact h3) hd (Or.inr ⟨hpd', (hfr d).2 ⟨ed, hed, heds⟩⟩) with hc | hc
    · rw [hs] at hc; simp at hc
    · rw [h4] at hc; simp at hc
  · intro x e' hx hg hs hsrc hf hd
    obtain ⟨ex, h3, h4, h5, h6, h7, h8, -⟩ := orig x e' hg
    have hfd : ∀ d ∈ ex.deps, FreshAt mods d ∧ p d = false ∧ d ≠ m := by
      intro d hdm
      obtain ⟨⟨ed, hed, heds⟩, hne⟩ := hd d (h4 ▸ hdm)
      obtain ⟨h9, h10⟩ := key d ed hne hed heds
      exact ⟨⟨ed, h9, heds⟩, h10, hne⟩
    by_cases hxs : ex.stale = true
    · exact h.live x ex h3 hxs (h5 ▸ hsrc) (h6 ▸ hf) (fun d hdm => (hfd d hdm).1)
    · have hxs' : ex.stale = false := by simpa using hxs
      have hpx : p x = true := by rw [h8, hxs'] at hs; simpa using hs
      obtain ⟨y, hy, hyp⟩ := h2.prov x ex (by rw [hget x hx]; exact h3) hxs' hpx
      obtain ⟨-, h9, h10⟩ := hfd y hy
      rcases hyp with hyp | ⟨hyp, -⟩
      · simp at hyp; exact absurd hyp h10
      · rw [h9] at hyp; simp at hyp
  · intro x e' hx hg hsrc d hd hdm ed hed heds
    obtain ⟨ex, h3, h4, h5, -, h7, -⟩ := orig x e' hg
    obtain ⟨h9, -⟩ := key d ed hdm hed heds
    rw [h7]
    exact h.seen x ex h3 (h5 ▸ hsrc) d (h4 ▸ hd) ed h9 heds

/-- Opening an entry whose module has no revision. -/
theorem open_stale {sources : List T} {P : Nat → Prop} {mods : List (Entry T U)} (h : Inv sources P mods) {m : Nat}
    {e : Entry T U} (hm : mods[m]? = some e) (hr : e.revision = none) (r : Option (Rev T U)) :
    Open sources P m (mods.set m { e with revision := r }) := by
  have hlt := (List.getElem?_eq_some_iff.1 hm).1
  have hst : e.stale = true := by
    by_contra hc
    have := (h.safe m e hm (by simpa using hc)).revision_some
    rw [hr] at this; simp at this
  have hget : ∀ x, x ≠ m → (mods.set m { e with revision := r })[x]? = mods[x]? := fun x hx =>
    List.getElem?_set_ne (Ne.symm hx)
  have hgetm : (mods.set m { e with revision := r })[m]? = some { e with revision := r } := List.getElem?_set_self hlt
  have orig : ∀ (x : Nat) (e' : Entry T U), (mods.set m { e with revision := r })[x]? = some e' →
      ∃ ex, mods[x]? = some ex ∧ e'.deps = ex.deps ∧ e'.src = ex.src := by
    intro x e' hg
    by_cases hx : x = m
    · subst hx
      rw [hgetm] at hg
      cases hg
      exact ⟨e, hm, rfl, rfl⟩
    · rw [hget x hx] at hg
      exact ⟨e', hg, rfl, rfl⟩
  constructor
  · intro x e' hg d hd
    obtain ⟨ex, h3, h4, -⟩ := orig x e' hg
    rw [List.length_set]
    exact h.range x ex h3 d (h4 ▸ hd)
  · intro x e' src hg hs
    obtain ⟨ex, h3, -, h4⟩ := orig x e' hg
    exact h.srcs x ex src h3 (h4 ▸ hs)
  · intro x
    rw [depR_set_same (e' := { e with revision := r }) hm rfl]
    exact h.acyclic x
  · intro x e' hx hg hs
    rw [hget x hx] at hg
    have hgood := h.safe x e' hg hs
    have hnm : m ∉ e'.deps := by
      intro hc
      obtain ⟨e2, h1, h2⟩ := hgood.fresh m hc
      rw [hm] at h1; cases h1
      rw [hst] at h2; simp at h2
    refine ⟨hgood.congr (fun _ _ h => h) ?_, hnm⟩
    intro d hd ed hed heds
    exact ⟨ed, by rw [hget d (fun hc => hnm (hc ▸ hd))]; exact hed, heds, rfl⟩
  · intro x e' hx hg hs hsrc hf hd
    rw [hget x hx] at hg
    refine h.live x e' hg hs hsrc hf ?_
    intro d hdm
    obtain ⟨⟨ed, h1, h2⟩, h3⟩ := hd d hdm
    rw [hget d h3] at h1
    exact ⟨ed, h1, h2⟩
  · intro x e' hx hg hsrc d hd hdm ed hed heds
    rw [hget x hx] at hg
    rw [hget d hdm] at hed
    exact h.seen x e' hg hsrc d hd ed hed heds

/-- Opening a new module. -/
theorem open_new {sources : List T} {P : Nat → Prop} {mods : List (Entry T U)} (h : Inv sources P mods) :
    Open sources P mods.length mods := by
  refine ⟨h.range, h.srcs, h.acyclic, ?_, ?_, ?_⟩
  · intro x e _ hg hs
    exact ⟨h.safe x e hg hs, fun hc => lt_irrefl _ (h.range x e hg _ hc)⟩
  · intro x e _ hg hs hsrc hf hd
    exact h.live x e hg hs hsrc hf (fun d hdm => (hd d hdm).1)
  · intro x e _ hg hsrc d hd _ ed hed heds
    exact h.seen x e hg hsrc d hd ed hed heds

/-- Put an entry at `m`: replace it, or append it when it is new. -/
def put (mods : List (Entry T U)) (m : Nat) (e : Entry T U) : List (Entry T U) :=
  if m < mods.length then mods.set m e else mods ++ [e]

theorem put_self {mods : List (Entry T U)} {m : Nat} (hm : m ≤ mods.length) (e : Entry T U) : (put mods m e)[m]? = some e := by
  unfold put
  split
  · rename_i h; exact List.getElem?_set_self h
  · have : m = mods.length := by omega
    subst this; simp

theorem put_ne {mods : List (Entry T U)} {m x : Nat} (hm : m ≤ mods.length) (e : Entry T U) (hx : x ≠ m) :
    (put mods m e)[x]? = mods[x]? := by
  unfold put
  split
  · exact List.getElem?_set_ne (Ne.symm hx)
  · have : m = mods.length := by omega
    subst this
    by_cases hl : x < mods.length
    · rw [List.getElem?_append_left hl]
    · rw [List.getElem?_eq_none (by simp; omega), List.getElem?_eq_none (by omega)]

theorem put_length {mods : List (Entry T U)} {m : Nat} (hm : m ≤ mods.length) (e : Entry T U) :
    (put mods m e).length = max mods.length (m + 1) := by
  unfold put
  split
  · simp; omega
  · simp; omega

/-- Replacing the dependencies of `m` by ones that close no cycle through `m` keeps the graph acyclic. -/
theorem acyclic_put {mods : List (Entry T U)} {m : Nat} (hm : m ≤ mods.length) {e : Entry T U}
    (hac : ∀ x, ¬ Relation.TransGen (DepR mods) x x)
    (hcyc : ¬ Relation.TransGen (DepR (put mods m e)) m m) : ∀ x, ¬ Relation.TransGen (DepR (put mods m e)) x x := by
  have key : ∀ x y, Relation.TransGen (DepR (put mods m e)) x y →
      Relation.TransGen (DepR mods) x y ∨
        (Relation.ReflTransGen (DepR (put mods m e)) x m ∧ Relation.TransGen (DepR (put mods m e)) m y) := by
    intro x y hxy
    induction hxy with
    | @single b hb =>
      by_cases hx : x = m
      · subst hx; exact Or.inr ⟨.refl, .single hb⟩
      · refine Or.inl (.single ?_)
        obtain ⟨e', h1, h2⟩ := hb
        rw [put_ne hm e hx] at h1
        exact ⟨e', h1, h2⟩
    | @tail b c hab hbc ih =>
      rcases ih with ih | ⟨ih1, ih2⟩
      · by_cases hb : b = m
        · subst hb; exact Or.inr ⟨hab.to_reflTransGen, .single hbc⟩
        · refine Or.inl (.tail ih ?_)
          obtain ⟨e', h1, h2⟩ := hbc
          rw [put_ne hm e hb] at h1
          exact ⟨e', h1, h2⟩
      · exact Or.inr ⟨ih1, .tail ih2 hbc⟩
  intro x hx
  rcases key x x hx with h | ⟨h1, h2⟩
  · exact hac x h
  · exact hcyc (h2.trans_left h1)

/-- The modules that wait for `m`. -/
def Waiting (mods : List (Entry T U)) (m x : Nat) : Prop :=
  ∃ e, mods[x]? = some e ∧ m ∈ e.deps ∧ e.stale = true ∧ e.src.isSome = true

/-- Storing a fresh revision. -/
theorem store_fresh {sources : List T} {P : Nat → Prop} {mods : List (Entry T U)} {m : Nat} (h : Open sources P m mods)
    (hm : m ≤ mods.length) {src : SrcInfo U} {text : T} (ht : sources[src.sourceId]? = some text) {deps : List Nat}
    {attempt : Nat} (hr : ∀ d ∈ deps, d < mods.length)
    (hcyc : ∀ e : Entry T U, e.deps = deps → ¬ Relation.TransGen (DepR (put mods m e)) m m)
    (hfresh : ∀ d ∈ deps, FreshAt mods d) :
    Inv sources (fun x => (P x ∧ x ≠ m) ∨ Waiting (put mods m ⟨some src, some (.built text src.uses (against mods deps)), false,
        deps, attempt, false, view mods⟩) m x)
      (put mods m ⟨some src, some (.built text src.uses (against mods deps)), false, deps, attempt, false, view mods⟩) := by
  set e0 : Entry T U := ⟨some src, some (.built text src.uses (against mods deps)), false, deps, attempt, false, view mods⟩ with he0
  have hmd : m ∉ deps := fun hc => hcyc e0 rfl (.single ⟨e0, put_self hm e0, hc⟩)
  have hself := put_self hm e0
  have hne := fun x (hx : x ≠ m) => put_ne hm e0 hx
  have hlen : mods.length ≤ (put mods m e0).length := by rw [put_length hm]; exact le_max_left _ _
  constructor
  · intro x e hg d hd
    by_cases hx : x = m
    · subst hx; rw [hself] at hg; cases hg
      exact lt_of_lt_of_le (hr d hd) hlen
    · rw [hne x hx] at hg
      exact lt_of_lt_of_le (h.range x e hg d hd) hlen
  · intro x e s hg hs
    by_cases hx : x = m
    · subst hx; rw [hself] at hg; cases hg
      cases hs
      exact (List.getElem?_eq_some_iff.1 ht).1
    · rw [hne x hx] at hg
      exact h.srcs x e s hg hs
  · exact acyclic_put hm h.acyclic (hcyc e0 rfl)
  · intro x e hg hs
    by_cases hx : x = m
    · subst hx; rw [hself] at hg; cases hg
      have hg0 : GoodE sources mods e0 := ⟨hfresh, ⟨text, ht, rfl⟩⟩
      refine hg0.congr (fun _ _ h => h) ?_
      intro d hd ed hed heds
      exact ⟨ed, by rw [hne d (fun hc => hmd (hc ▸ hd))]; exact hed, heds, rfl⟩
    · rw [hne x hx] at hg
      obtain ⟨h1, h2⟩ := h.safe x e hx hg hs
      refine h1.congr (fun _ _ h => h) ?_
      intro d hd ed hed heds
      exact ⟨ed, by rw [hne d (fun hc => h2 (hc ▸ hd))]; exact hed, heds, rfl⟩
  · intro x e hg hs hsrc hf hd
    by_cases hx : x = m
    · subst hx; rw [hself] at hg; cases hg; simp [he0] at hs
    · by_cases hxm : m ∈ e.deps
      · exact Or.inr ⟨e, hg, hxm, hs, hsrc⟩
      · rw [hne x hx] at hg
        refine Or.inl ⟨h.live x e hx hg hs hsrc hf ?_, hx⟩
        intro d hdm
        have hdm' : d ≠ m := fun hc => hxm (hc ▸ hdm)
        obtain ⟨ed, h1, h2⟩ := hd d hdm
        rw [hne d hdm'] at h1
        exact ⟨⟨ed, h1, h2⟩, hdm'⟩
  · intro x e hg hsrc d hd ed hed heds
    by_cases hx : x = m
    · subst hx; rw [hself] at hg; cases hg
      have hdm : d ≠ x := fun hc => hmd (hc ▸ hd)
      rw [hne d hdm] at hed
      left
      simp [he0, view, hed]
    · by_cases hdm : d = m
      · subst hdm
        have hst : e.stale = true := by
          by_contra hc
          rw [hne x hx] at hg
          exact (h.safe x e hx hg (by simpa using hc)).2 hd
        exact Or.inr (Or.inr ⟨e, hg, hd, hst, hsrc⟩)
      · rw [hne x hx] at hg
        rw [hne d hdm] at hed
        rcases h.seen x e hx hg hsrc d hd hdm ed hed heds with h1 | h1
        · exact Or.inl h1
        · exact Or.inr (Or.inl ⟨h1, hx⟩)

/-- Storing a stale entry: a failed compilation, or one against stale dependencies. -/
theorem store_stale {sources : List T} {P : Nat → Prop} {mods : List (Entry T U)} {m : Nat} (h : Open sources P m mods)
    (hm : m ≤ mods.length) {e0 : Entry T U} {src : SrcInfo U} (hsrc0 : e0.src = some src) (ht : src.sourceId < sources.length)
    (hr : ∀ d ∈ e0.deps, d < mods.length)
    (hcyc : ¬ Relation.TransGen (DepR (put mods m e0)) m m) (hst : e0.stale = true) (hseen : e0.seen = view mods)
    (hwhy : e0.failed = true ∨ ∃ d ∈ e0.deps, ¬ FreshAt mods d) :
    Inv sources (fun x => P x ∧ x ≠ m) (put mods m e0) := by
  have hmd : m ∉ e0.deps := fun hc => hcyc (.single ⟨e0, put_self hm e0, hc⟩)
  have hself := put_self hm e0
  have hne := fun x (hx : x ≠ m) => put_ne hm e0 hx
  have hlen : mods.length ≤ (put mods m e0).length := by rw [put_length hm]; exact le_max_left _ _
  constructor
  · intro x e hg d hd
    by_cases hx : x = m
    · subst hx; rw [hself] at hg; cases hg
      exact lt_of_lt_of_le (hr d hd) hlen
    · rw [hne x hx] at hg
      exact lt_of_lt_of_le (h.range x e hg d hd) hlen
  · intro x e s hg hs
    by_cases hx : x = m
    · subst hx; rw [hself] at hg; cases hg
      rw [hsrc0] at hs
      cases hs
      exact ht
    · rw [hne x hx] at hg
      exact h.srcs x e s hg hs
  · exact acyclic_put hm h.acyclic hcyc
  · intro x e hg hs
    by_cases hx : x = m
    · subst hx; rw [hself] at hg; cases hg; rw [hst] at hs; simp at hs
    · rw [hne x hx] at hg
      obtain ⟨h1, h2⟩ := h.safe x e hx hg hs
      refine h1.congr (fun _ _ h => h) ?_
      intro d hd ed hed heds
      exact ⟨ed, by rw [hne d (fun hc => h2 (hc ▸ hd))]; exact hed, heds, rfl⟩
  · intro x e hg hs hsrc hf hd
    by_cases hx : x = m
    · subst hx; rw [hself] at hg; cases hg
      rcases hwhy with hc | ⟨d, hdm, hc⟩
      · rw [hf] at hc; simp at hc
      · obtain ⟨ed, h1, h2⟩ := hd d hdm
        rw [hne d (fun hc => hmd (hc ▸ hdm))] at h1
        exact absurd ⟨ed, h1, h2⟩ hc
    · rw [hne x hx] at hg
      refine ⟨h.live x e hx hg hs hsrc hf ?_, hx⟩
      intro d hdm
      obtain ⟨ed, h1, h2⟩ := hd d hdm
      have hdm' : d ≠ m := by
        rintro rfl
        rw [hself] at h1; cases h1
        rw [hst] at h2; simp at h2
      rw [hne d hdm'] at h1
      exact ⟨⟨ed, h1, h2⟩, hdm'⟩
  · intro x e hg hsrc d hd ed hed heds
    have hdm : d ≠ m := by
      rintro rfl
      rw [hself] at hed; cases hed
      rw [hst] at heds; simp at heds
    rw [hne d hdm] at hed
    by_cases hx : x = m
    · subst hx; rw [hself] at hg; cases hg
      left
      simp [hseen, view, hed]
    · rw [hne x hx] at hg
      rcases h.seen x e hx hg hsrc d hd hdm ed hed heds with h1 | h1
      · exact Or.inl h1
      · exact Or.inr ⟨h1, hx⟩

/-- Marking again changes nothing when every dependent is stale already. -/
theorem markStale_noop {mods : List (Entry T U)} {m : Nat} (h : ∀ (x : Nat) (e : Entry T U), mods[x]? = some e → m ∈ e.deps → e.stale = true) :
    markStale mods [m] = some mods := by
  have key : ∀ l : List Nat, (∀ x ∈ l, x ∈ directDeps mods m) → l.foldl markOne (mods, []) = (mods, []) := by
    intro l
    induction l with
    | nil => intro _; rfl
    | cons x l ih =>
      intro hl
      obtain ⟨e, h1, h2⟩ := mem_directDeps.1 (hl x (by simp))
      rw [List.foldl_cons]
      have : markOne (mods, []) x = (mods, []) := by simp [markOne, h1, h x e h1 h2]
      rw [this]
      exact ih (fun y hy => hl y (by simp [hy]))
  rw [markStale, key _ (fun _ h => h), markStale]

end Ferlium.Session
