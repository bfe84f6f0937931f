import Verif.Model.Session
import Verif.Props.Graph
import Mathlib.Tactic

/-! Lemmas about the module registry model: marking stale modules. -/
namespace Ferlium.Session

open Ferlium.Graph (Gr findCycleFrom Edge Reach WF)

variable {T U : Type}

theorem mem_directDeps {mods : List (Entry T U)} {target x : Nat} :
    x ∈ directDeps mods target ↔ ∃ e, mods[x]? = some e ∧ target ∈ e.deps := by
  simp only [directDeps, List.mem_filter, List.mem_range]
  constructor
  · rintro ⟨hx, h⟩
    rw [List.getElem?_eq_getElem hx] at h ⊢
    exact ⟨_, rfl, by simpa using h⟩
  · rintro ⟨e, he, ht⟩
    refine ⟨(List.getElem?_eq_some_iff.1 he).1, ?_⟩
    rw [he]; simpa using ht

theorem directDeps_lt {mods : List (Entry T U)} {target x : Nat} (h : x ∈ directDeps mods target) : x < mods.length := by
  obtain ⟨e, he, -⟩ := mem_directDeps.1 h
  exact (List.getElem?_eq_some_iff.1 he).1

theorem directDeps_nodup (mods : List (Entry T U)) (target : Nat) : (directDeps mods target).Nodup :=
  List.Nodup.filter _ List.nodup_range

theorem directDeps_length (mods : List (Entry T U)) (target : Nat) : (directDeps mods target).length ≤ mods.length := by
  unfold directDeps
  exact le_trans (List.length_filter_le _ _) (by simp)

/-! ### Setting stale flags -/

/-- All the modules selected by `p` become stale. -/
def setStale (mods : List (Entry T U)) (p : Nat → Bool) : List (Entry T U) :=
  mods.mapIdx fun i e => { e with stale := e.stale || p i }

theorem setStale_get (mods : List (Entry T U)) (p : Nat → Bool) (x : Nat) :
    (setStale mods p)[x]? = (mods[x]?).map fun e => { e with stale := e.stale || p x } := by
  simp [setStale]

theorem setStale_length (mods : List (Entry T U)) (p : Nat → Bool) : (setStale mods p).length = mods.length := by
  simp [setStale]

theorem setStale_false (mods : List (Entry T U)) : setStale mods (fun _ => false) = mods := by
  apply List.ext_getElem?
  intro i
  rw [setStale_get]
  cases mods[i]? <;> simp

theorem setStale_setStale (mods : List (Entry T U)) (p q : Nat → Bool) :
    setStale (setStale mods p) q = setStale mods (fun i => p i || q i) := by
  apply List.ext_getElem?
  intro i
  rw [setStale_get, setStale_get, setStale_get]
  cases mods[i]? <;> simp [Bool.or_assoc]

/-- The module is registered and fresh. -/
def FreshAt (mods : List (Entry T U)) (x : Nat) : Prop := ∃ e, mods[x]? = some e ∧ e.stale = false

/-- Number of fresh modules. -/
def freshCount (mods : List (Entry T U)) : Nat := mods.countP (fun e => !e.stale)

theorem markOne_spec (mods : List (Entry T U)) (stack : List Nat) (d : Nat) :
    (markOne (mods, stack) d).1 = setStale mods (fun i => decide (i = d)) ∧
    (∀ x, x ∈ (markOne (mods, stack) d).2 ↔ x ∈ stack ∨ (x = d ∧ FreshAt mods x)) ∧
    2 * freshCount (markOne (mods, stack) d).1 + (markOne (mods, stack) d).2.length ≤ 2 * freshCount mods + stack.length := by
  cases he : mods[d]? with
  | none =>
    have hm : markOne (mods, stack) d = (mods, stack) := by simp [markOne, he]
    rw [hm]
    refine ⟨?_, ?_, le_refl _⟩
    · apply List.ext_getElem?
      intro i
      rw [setStale_get]
      by_cases hi : i = d
      · subst hi; simp [he]
      · cases mods[i]? <;> simp [hi]
    · intro x
      constructor
      · exact Or.inl
      · rintro (h | ⟨rfl, e, h, -⟩)
        · exact h
        · rw [he] at h; simp at h
  | some e =>
    by_cases hs : e.stale = true
    · have hm : markOne (mods, stack) d = (mods, stack) := by simp [markOne, he, hs]
      rw [hm]
      refine ⟨?_, ?_, le_refl _⟩
      · apply List.ext_getElem?
        intro i
        rw [setStale_get]
        by_cases hi : i = d
        · subst hi; rw [he]; simp; cases e; simp at hs; simp [hs]
        · cases mods[i]? <;> simp [hi]
      · intro x
        constructor
        · exact Or.inl
        · rintro (h | ⟨rfl, e', h, h'⟩)
          · exact h
          · rw [he] at h; cases h; rw [hs] at h'; simp at h'
    · have hs' : e.stale = false := by simpa using hs
      have hm : markOne (mods, stack) d = (mods.set d { e with stale := true }, d :: stack) := by simp [markOne, he, hs']
      rw [hm]
      have hlt := (List.getElem?_eq_some_iff.1 he).1
      refine ⟨?_, ?_, ?_⟩
      · apply List.ext_getElem?
        intro i
        rw [setStale_get]
        by_cases hi : i = d
        · subst hi; rw [List.getElem?_set_self hlt, he]; simp
        · rw [List.getElem?_set_ne (Ne.symm hi)]; cases mods[i]? <;> simp [hi]
      · intro x
        simp only [List.mem_cons]
        constructor
        · rintro (rfl | h)
          · exact Or.inr ⟨rfl, e, he, hs'⟩
          · exact Or.inl h
        · rintro (h | ⟨rfl, -⟩)
          · exact Or.inr h
          · exact Or.inl rfl
      · have hge : mods[d] = e := (List.getElem?_eq_some_iff.1 he).2
        have hpos : 0 < freshCount mods := by
          rw [freshCount, List.countP_pos_iff]
          exact ⟨e, List.mem_of_getElem? he, by simp [hs']⟩
        have hc : freshCount (mods.set d { e with stale := true }) = freshCount mods - 1 := by
          rw [freshCount, List.countP_set hlt]
          simp [hge, hs', freshCount]
        simp only [hc, List.length_cons]
        omega

theorem markFold_spec (l : List Nat) : ∀ (mods : List (Entry T U)) (stack : List Nat),
    (l.foldl markOne (mods, stack)).1 = setStale mods (fun i => decide (i ∈ l)) ∧
    (∀ x, x ∈ (l.foldl markOne (mods, stack)).2 ↔ x ∈ stack ∨ (x ∈ l ∧ FreshAt mods x)) ∧
    2 * freshCount (l.foldl markOne (mods, stack)).1 + (l.foldl markOne (mods, stack)).2.length ≤
      2 * freshCount mods + stack.length := by
  induction l with
  | nil =>
    intro mods stack
    refine ⟨?_, fun x => by simp, le_refl _⟩
    simp [setStale_false]
  | cons d l ih =>
    intro mods stack
    obtain ⟨a1, a2, a3⟩ := markOne_spec mods stack d
    rcases hm : markOne (mods, stack) d with ⟨mods1, stack1⟩
    rw [hm] at a1 a2 a3
    simp only at a1 a2 a3
    obtain ⟨b1, b2, b3⟩ := ih mods1 stack1
    rw [List.foldl_cons, hm]
    refine ⟨?_, fun x => ?_, le_trans b3 a3⟩
    · rw [b1, a1, setStale_setStale]
      congr 1
      funext i
      by_cases h1 : i = d <;> by_cases h2 : i ∈ l <;> simp [h1, h2]
    · rw [b2, a2]
      have hf : FreshAt mods1 x ↔ FreshAt mods x ∧ x ≠ d := by
        rw [a1]
        simp only [FreshAt, setStale_get]
        cases mods[x]? with
        | none => simp
        | some e => simp
      rw [hf]
      by_cases hx : x = d
      · subst hx; simp
      · simp [hx]

/-- What marking from a stack of roots does: the selected modules are exactly closed under "depends on". -/
structure Marked (mods : List (Entry T U)) (stack : List Nat) (p : Nat → Bool) : Prop where
  closed : ∀ x e y, mods[x]? = some e → y ∈ e.deps → (y ∈ stack ∨ (p y = true ∧ FreshAt mods y)) → e.stale = true ∨ p x = true
  prov : ∀ x e, mods[x]? = some e → e.stale = false → p x = true → ∃ y ∈ e.deps, y ∈ stack ∨ (p y = true ∧ FreshAt mods y)

theorem markStale_spec : ∀ (n : Nat) (mods : List (Entry T U)) (stack : List Nat), 2 * freshCount mods + stack.length ≤ n →
    ∃ p, markStale mods stack = some (setStale mods p) ∧ Marked mods stack p := by
  intro n
  induction n with
  | zero =>
    intro mods stack hn
    have : stack = [] := by
      rw [← List.length_eq_zero_iff]; omega
    subst this
    refine ⟨fun _ => false, by rw [markStale]; simp [setStale_false], ⟨by simp, by simp⟩⟩
  | succ n ih =>
    intro mods stack hn
    cases stack with
    | nil => exact ⟨fun _ => false, by rw [markStale]; simp [setStale_false], ⟨by simp, by simp⟩⟩
    | cons r stack =>
      obtain ⟨a1, a2, a3⟩ := markFold_spec (directDeps mods r) mods stack
      rw [List.length_cons] at hn
      obtain ⟨p, h1, h2⟩ := ih ((directDeps mods r).foldl markOne (mods, stack)).1
        ((directDeps mods r).foldl markOne (mods, stack)).2 (by omega)
      rw [markStale]
      rw [h1, a1, setStale_setStale]
      refine ⟨_, rfl, ?_⟩
      rw [a1] at h2
      have hfresh : ∀ y, FreshAt (setStale mods (fun i => decide (i ∈ directDeps mods r))) y ↔
          FreshAt mods y ∧ y ∉ directDeps mods r := by
        intro y
        simp only [FreshAt, setStale_get]
        cases mods[y]? with
        | none => simp
        | some e => simp
      constructor
      · intro x e y hx hy hyp
        simp only [Bool.or_eq_true, decide_eq_true_eq] at hyp ⊢
        by_cases hxr : x ∈ directDeps mods r
        · exact Or.inr (Or.inl hxr)
        have hx' : (setStale mods (fun i => decide (i ∈ directDeps mods r)))[x]? = some e := by
          rw [setStale_get, hx]; simp [hxr]
        by_cases hyr : y = r
        · subst hyr
          exact absurd (mem_directDeps.2 ⟨e, hx, hy⟩) hxr
        · have key : y ∈ ((directDeps mods r).foldl markOne (mods, stack)).2 ∨ (p y = true ∧
              FreshAt (setStale mods (fun i => decide (i ∈ directDeps mods r))) y) := by
            rw [a2, hfresh]
            rcases hyp with hyp | ⟨hyp, hf⟩
            · rcases List.mem_cons.1 hyp with h | h
              · exact absurd h hyr
              · exact Or.inl (Or.inl h)
            · by_cases hyd : y ∈ directDeps mods r
              · exact Or.inl (Or.inr ⟨hyd, hf⟩)
              · rcases hyp with h | h
                · exact absurd h hyd
                · exact Or.inr ⟨h, hf, hyd⟩
          rcases h2.closed x e y hx' hy key with h | h
          · exact Or.inl h
          · exact Or.inr (Or.inr h)
      · intro x e hx hs hp
        simp only [Bool.or_eq_true, decide_eq_true_eq] at hp
        by_cases hxr : x ∈ directDeps mods r
        · obtain ⟨e', he', hr⟩ := mem_directDeps.1 hxr
          rw [hx] at he'; cases he'
          exact ⟨r, hr, Or.inl (by simp)⟩
        · have hp' : p x = true := by
            rcases hp with h | h
            · exact absurd h hxr
            · exact h
          have hx' : (setStale mods (fun i => decide (i ∈ directDeps mods r)))[x]? = some e := by
            rw [setStale_get, hx]; simp [hxr]
          obtain ⟨y, hy, h⟩ := h2.prov x e hx' hs hp'
          rw [a2, hfresh] at h
          refine ⟨y, hy, ?_⟩
          simp only [Bool.or_eq_true, decide_eq_true_eq, List.mem_cons]
          rcases h with (h | ⟨h, hf⟩) | ⟨h, hf, -⟩
          · exact Or.inl (Or.inr h)
          · exact Or.inr ⟨Or.inl h, hf⟩
          · exact Or.inr ⟨Or.inr h, hf⟩

theorem markStale_ok (mods : List (Entry T U)) (m : Nat) :
    ∃ p, markStale mods [m] = some (setStale mods p) ∧ Marked mods [m] p := markStale_spec _ mods [m] (le_refl _)

end Ferlium.Session
