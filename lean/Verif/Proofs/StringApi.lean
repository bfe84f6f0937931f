import Verif.Model.StringApi
import Verif.Proofs.Normal

/-! The operations of the string API keep texts normalised; the parts of a split. -/
namespace Ferlium.Text

variable {N : Normaliser}

/-- Nothing in the second text composes with what precedes it, unless it starts with a combining mark. -/
def Seam (N : Normaliser) (value : Text) : Prop := ∀ c r, value = c :: r → N.mark c = true ∨ N.Opens c

theorem push_eq_concat (_L : N.Lawful) {a b : Text} (ha : N.Normal a) (hb : N.Normal b) (hs : Seam N b) :
    push N a b = N.nfc (a ++ b) := by
  cases b with
  | nil =>
    simp only [push, List.append_nil]
    exact ha.symm
  | cons c r =>
    simp only [push]
    split
    · rfl
    · rename_i hm
      rcases hs c r rfl with h | h
      · exact absurd h hm
      · exact (h a r ha hb).symm

theorem push_normal (L : N.Lawful) {a b : Text} (ha : N.Normal a) (hb : N.Normal b) (hs : Seam N b) :
    N.Normal (push N a b) := by
  rw [push_eq_concat L ha hb hs]
  exact L.idem _

theorem flatten_part {l : List Text} {a b : Nat} : ∃ x y, l.flatten = x ++ ((l.take b).drop a).flatten ++ y := by
  refine ⟨((l.take b).take a).flatten, (l.drop b).flatten, ?_⟩
  rw [← List.flatten_append, List.take_append_drop, ← List.flatten_append, List.take_append_drop]

theorem slice_normal (L : N.Lawful) {s : Text} (h : N.Normal s) (i j : Int) : N.Normal (slice N s i j) := by
  simp only [slice]
  split
  · exact L.nil
  · obtain ⟨x, y, e⟩ := flatten_part (l := N.graphemes s) (a := sliceIndex i (N.graphemes s).length)
      (b := sliceIndex j (N.graphemes s).length)
    rw [L.clusters] at e
    rw [e] at h
    exact L.part _ _ _ h

theorem trim_part (white : Char → Bool) (s : Text) : ∃ x y, s = x ++ trim white s ++ y := by
  have h1 : s = s.takeWhile white ++ s.dropWhile white := List.takeWhile_append_dropWhile.symm
  have h2 : (s.dropWhile white) = trim white s ++ ((s.dropWhile white).reverse.takeWhile white).reverse := by
    rw [trim, ← List.reverse_append, List.takeWhile_append_dropWhile, List.reverse_reverse]
  refine ⟨s.takeWhile white, ((s.dropWhile white).reverse.takeWhile white).reverse, ?_⟩
  rw [List.append_assoc, ← h2, ← h1]

theorem trim_normal (L : N.Lawful) {s : Text} (h : N.Normal s) (white : Char → Bool) : N.Normal (trim white s) := by
  obtain ⟨x, y, e⟩ := trim_part white s
  rw [e] at h
  exact L.part _ _ _ h

/-! ### Split -/

theorem separatorAt_some {sep : Text} {w : Nat} : ∀ {l : List Text} {i : Nat}, separatorAt sep w l = some i →
    i + w ≤ l.length ∧ i < l.length ∧ ((l.drop i).take w).flatten = sep
  | [], _, h => by simp [separatorAt] at h
  | c :: rest, i, h => by
    rw [separatorAt] at h
    split at h
    · rename_i hw
      split at h
      · rename_i hs
        simp only [Option.some.injEq] at h
        subst h
        exact ⟨by simpa using hw, by simp, by simpa using hs⟩
      · simp only [Option.map_eq_some_iff] at h
        obtain ⟨j, hj, rfl⟩ := h
        obtain ⟨h1, h2, h3⟩ := separatorAt_some hj
        exact ⟨by simp; omega, by simp; omega, by simpa using h3⟩
    · simp at h

/-- No earlier position has the separator. -/
theorem separatorAt_least {sep : Text} {w : Nat} : ∀ {l : List Text} {i : Nat}, separatorAt sep w l = some i →
    ∀ j < i, ((l.drop j).take w).flatten ≠ sep
  | [], _, h => by simp [separatorAt] at h
  | c :: rest, i, h => by
    rw [separatorAt] at h
    split at h
    · split at h
      · simp only [Option.some.injEq] at h
        subst h
        intro j hj
        omega
      · rename_i hs
        simp only [Option.map_eq_some_iff] at h
        obtain ⟨k, hk, rfl⟩ := h
        intro j hj
        cases j with
        | zero => simpa using hs
        | succ j => simpa using separatorAt_least hk j (by omega)
    · simp at h

theorem separatorAt_none {sep : Text} {w : Nat} (hw : 0 < w) : ∀ {l : List Text}, separatorAt sep w l = none →
    ∀ j, j + w ≤ l.length → ((l.drop j).take w).flatten ≠ sep
  | [], _, j, hj => by simp at hj; omega
  | c :: rest, h, j, hj => by
    rw [separatorAt] at h
    split at h
    · split at h
      · simp at h
      · rename_i hs
        simp only [Option.map_eq_none_iff] at h
        cases j with
        | zero => simpa using hs
        | succ j => simpa using separatorAt_none hw h j (by simp at hj; omega)
    · rename_i hl
      simp at hl hj
      omega

/-- The parts joined by the separator. -/
def joined (sep : Text) : List Text → Text
  | [] => []
  | [p] => p
  | p :: q :: rest => p ++ sep ++ joined sep (q :: rest)

theorem splitParts_ne_nil (sep : Text) (w fuel : Nat) (l : List Text) : ∃ p ps, splitParts sep w fuel l = p :: ps := by
  cases fuel with
  | zero => exact ⟨_, _, rfl⟩
  | succ fuel =>
    rw [splitParts]
    split
    · exact ⟨_, _, rfl⟩
    · exact ⟨_, _, rfl⟩

theorem splitParts_joined (sep : Text) (w : Nat) : ∀ (fuel : Nat) (l : List Text),
    joined sep (splitParts sep w fuel l) = l.flatten
  | 0, l => rfl
  | fuel + 1, l => by
    rw [splitParts]
    split
    · rename_i i hi
      obtain ⟨h1, _, h2⟩ := separatorAt_some hi
      obtain ⟨p, ps, e⟩ := splitParts_ne_nil sep w fuel (l.drop (i + w))
      have ih := splitParts_joined sep w fuel (l.drop (i + w))
      rw [e] at ih ⊢
      rw [joined, ih]
      have : l = l.take i ++ ((l.drop i).take w ++ l.drop (i + w)) := by
        rw [← List.drop_drop, List.take_append_drop, List.take_append_drop]
      conv_rhs => rw [this]
      rw [List.flatten_append, List.flatten_append, h2]
      simp
    · rfl

/-- Each part of a split is a run of clusters without the separator. -/
theorem splitParts_parts (sep : Text) {w : Nat} (hw : 0 < w) : ∀ (fuel : Nat) (l : List Text), l.length ≤ fuel →
    ∀ p ∈ splitParts sep w fuel l, ∃ a b, p = ((l.take b).drop a).flatten ∧ a ≤ b ∧ b ≤ l.length ∧
      ∀ j, a ≤ j → j + w ≤ b → ((l.drop j).take w).flatten ≠ sep
  | 0, l, hf, p, hp => by
    have : l = [] := List.length_eq_zero_iff.mp (by omega)
    subst this
    simp only [splitParts, List.flatten_nil, List.mem_singleton] at hp
    exact ⟨0, 0, by simp [hp], le_refl _, by simp, fun j _ hj => by omega⟩
  | fuel + 1, l, hf, p, hp => by
    rw [splitParts] at hp
    split at hp
    · rename_i i hi
      obtain ⟨h1, h1', h2⟩ := separatorAt_some hi
      rcases List.mem_cons.mp hp with rfl | hp
      · exact ⟨0, i, by simp, by omega, by omega, fun j _ hj => separatorAt_least hi j (by omega)⟩
      · obtain ⟨a, b, e, hab, hb, hs⟩ := splitParts_parts sep hw fuel (l.drop (i + w)) (by simp; omega) p hp
        refine ⟨i + w + a, i + w + b, ?_, by omega, by simp at hb; omega, ?_⟩
        · rw [e]
          congr 1
          rw [List.take_drop, List.drop_drop]
        · intro j hj hj'
          have := hs (j - (i + w)) (by omega) (by omega)
          rw [List.drop_drop] at this
          rwa [show i + w + (j - (i + w)) = j by omega] at this
    · rename_i hn
      simp only [List.mem_singleton] at hp
      refine ⟨0, l.length, by simp [hp], by omega, le_refl _, fun j _ hj => separatorAt_none hw hn j hj⟩

theorem graphemes_pos (L : N.Lawful) {s : Text} (h : s ≠ []) : 0 < (N.graphemes s).length := by
  rcases hg : N.graphemes s with _ | ⟨c, r⟩
  · have := L.clusters s
    rw [hg] at this
    exact absurd this.symm h
  · simp

theorem part_normal (L : N.Lawful) {s sep : Text} (h : N.Normal s) (hsep : sep ≠ []) :
    ∀ p ∈ split N s sep, N.Normal p := by
  intro p hp
  obtain ⟨a, b, e, _⟩ := splitParts_parts sep (graphemes_pos L hsep) _ (N.graphemes s) (le_refl _) p hp
  obtain ⟨x, y, e'⟩ := flatten_part (l := N.graphemes s) (a := a) (b := b)
  rw [L.clusters] at e'
  rw [e'] at h
  rw [e]
  exact L.part _ _ _ h

/-! ### Sequences of operations -/

/-- Every string of a register file is normalised. -/
def AllNormal (N : Normaliser) (regs : List Text) : Prop := ∀ s ∈ regs, N.Normal s

theorem AllNormal.get {regs : List Text} (h : AllNormal N regs) {a : Nat} {s : Text} (hs : regs[a]? = some s) : N.Normal s :=
  h s (List.mem_of_getElem? hs)

theorem AllNormal.snoc {regs : List Text} (h : AllNormal N regs) {s : Text} (hs : N.Normal s) : AllNormal N (regs ++ [s]) := by
  intro x hx
  rcases List.mem_append.mp hx with hx | hx
  · exact h x hx
  · simp only [List.mem_singleton] at hx
    exact hx ▸ hs

/-- A push has a safe seam; nothing is asked of the other operations. -/
def SafeOp (N : Normaliser) (regs : List Text) : Op → Prop
  | .push _ b => ∀ v, regs[b]? = some v → Seam N v
  | _ => True

theorem runOp_normal (L : N.Lawful) (X : Library) {regs regs' : List Text} {op : Op} (h : AllNormal N regs)
    (hs : SafeOp N regs op) (hr : runOp N X regs op = some regs') : AllNormal N regs' := by
  cases op with
  | new s =>
    simp only [runOp, Option.some.injEq] at hr
    exact hr ▸ h.snoc (L.idem s)
  | concat a b =>
    simp only [runOp, Option.pure_def, Option.bind_eq_bind, Option.bind_eq_some_iff, Option.some.injEq] at hr
    obtain ⟨x, hx, y, hy, rfl⟩ := hr
    exact h.snoc (L.idem _)
  | push a b =>
    simp only [runOp, Option.pure_def, Option.bind_eq_bind, Option.bind_eq_some_iff, Option.some.injEq] at hr
    obtain ⟨x, hx, y, hy, rfl⟩ := hr
    intro s hsm
    rcases List.mem_or_eq_of_mem_set hsm with hm | rfl
    · exact h s hm
    · exact push_normal L (h.get hx) (h.get hy) (hs y hy)
  | slice a i j =>
    simp only [runOp, Option.pure_def, Option.bind_eq_bind, Option.bind_eq_some_iff, Option.some.injEq] at hr
    obtain ⟨x, hx, rfl⟩ := hr
    exact h.snoc (slice_normal L (h.get hx) i j)
  | trim a =>
    simp only [runOp, Option.pure_def, Option.bind_eq_bind, Option.bind_eq_some_iff, Option.some.injEq] at hr
    obtain ⟨x, hx, rfl⟩ := hr
    exact h.snoc (trim_normal L (h.get hx) X.white)
  | upper a =>
    simp only [runOp, Option.pure_def, Option.bind_eq_bind, Option.bind_eq_some_iff, Option.some.injEq] at hr
    obtain ⟨x, hx, rfl⟩ := hr
    exact h.snoc (L.idem _)
  | lower a =>
    simp only [runOp, Option.pure_def, Option.bind_eq_bind, Option.bind_eq_some_iff, Option.some.injEq] at hr
    obtain ⟨x, hx, rfl⟩ := hr
    exact h.snoc (L.idem _)
  | replace a p b =>
    simp only [runOp, Option.pure_def, Option.bind_eq_bind, Option.bind_eq_some_iff, Option.some.injEq] at hr
    obtain ⟨x, hx, y, hy, z, hz, rfl⟩ := hr
    exact h.snoc (L.idem _)
  | item a k =>
    simp only [runOp, Option.pure_def, Option.bind_eq_bind, Option.bind_eq_some_iff, Option.some.injEq] at hr
    obtain ⟨x, hx, y, hy, rfl⟩ := hr
    exact h.snoc (L.idem _)
  | part a p k =>
    simp only [runOp, Option.pure_def, Option.bind_eq_bind, Option.bind_eq_some_iff] at hr
    obtain ⟨sep, hsep, hr⟩ := hr
    split at hr
    · simp at hr
    · rename_i hne
      simp only [Option.bind_eq_some_iff, Option.some.injEq] at hr
      obtain ⟨x, hx, y, hy, rfl⟩ := hr
      exact h.snoc (part_normal L (h.get hx) hne y (List.mem_of_getElem? hy))

end Ferlium.Text
