import Verif.Model.AliasName
import Mathlib.Tactic

/-!
# Matching of types and the order of names
-/

namespace Ferlium.AliasName

/-! ## What a match means -/

/-- A pair that is matched when the pairs below it are. -/
def Just (g : Graph) (k : Nat) (s : St) (x : Nat × Nat) : Prop :=
  match g x.1 with
  | .var v => if v < k then s.get v = some x.2 else g x.2 = .var v
  | .node h cs => ∃ cs', g x.2 = .node h cs' ∧ cs.length = cs'.length ∧ ∀ y ∈ cs.zip cs', y ∈ s.visited

/-- More is known. -/
def Grow (s s' : St) : Prop :=
  (∀ x ∈ s.visited, x ∈ s'.visited) ∧ ∀ v t, s.get v = some t → s'.get v = some t

theorem Grow.refl (s : St) : Grow s s := ⟨fun _ h => h, fun _ _ h => h⟩

theorem Grow.trans {s t u : St} (h1 : Grow s t) (h2 : Grow t u) : Grow s u :=
  ⟨fun x h => h2.1 x (h1.1 x h), fun v t h => h2.2 v t (h1.2 v t h)⟩

theorem Just.mono {g : Graph} {k : Nat} {s s' : St} (h : Grow s s') {x : Nat × Nat} (hj : Just g k s x) :
    Just g k s' x := by
  unfold Just at *
  split at hj
  · split at hj
    · rename_i hv
      rw [if_pos hv]
      exact h.2 _ _ hj
    · rename_i hv
      rw [if_neg hv]
      exact hj
  · obtain ⟨cs', h1, h2, h3⟩ := hj
    exact ⟨cs', h1, h2, fun y hy => h.1 y (h3 y hy)⟩

/-- What a match does to the state. -/
def Step (g : Graph) (k : Nat) (s s' : St) : Prop :=
  Grow s s' ∧ ∀ x ∈ s'.visited, x ∈ s.visited ∨ Just g k s' x

theorem Step.trans {g : Graph} {k : Nat} {s t u : St} (h1 : Step g k s t) (h2 : Step g k t u) :
    Step g k s u := by
  refine ⟨h1.1.trans h2.1, fun x hx => ?_⟩
  rcases h2.2 x hx with h | h
  · rcases h1.2 x h with h | h
    · exact .inl h
    · exact .inr (h.mono h2.1)
  · exact .inr h

theorem matchAll_step {g : Graph} {k : Nat} {f : Nat → Nat → St → Option (Bool × St)}
    (hf : ∀ p a s s', f p a s = some (true, s') → Step g k s s' ∧ (p, a) ∈ s'.visited)
    (l : List (Nat × Nat)) : ∀ s s', matchAll f l s = some (true, s') →
      Step g k s s' ∧ ∀ x ∈ l, x ∈ s'.visited := by
  induction l with
  | nil =>
    intro s s' h
    cases h
    exact ⟨⟨.refl _, fun x hx => .inl hx⟩, by simp⟩
  | cons y t ih =>
    obtain ⟨p, a⟩ := y
    intro s s' h
    simp only [matchAll] at h
    split at h
    · cases h
    · cases h
    · rename_i s1 h1
      obtain ⟨h2, h3⟩ := hf _ _ _ _ h1
      obtain ⟨h4, h5⟩ := ih _ _ h
      refine ⟨h2.trans h4, fun x hx => ?_⟩
      rcases List.mem_cons.1 hx with rfl | hx
      · exact h4.1.1 _ h3
      · exact h5 x hx

theorem matchTy_step {g : Graph} {k : Nat} (n : Nat) : ∀ p a s s',
    matchTy g k n p a s = some (true, s') → Step g k s s' ∧ (p, a) ∈ s'.visited := by
  induction n with
  | zero => intro p a s s' h; cases h
  | succ n ih =>
    intro p a s s' h
    simp only [matchTy] at h
    split at h
    · cases h
      exact ⟨⟨.refl _, fun x hx => .inl hx⟩, by assumption⟩
    have hg : Grow s { s with visited := (p, a) :: s.visited } :=
      ⟨fun x hx => List.mem_cons_of_mem _ hx, fun _ _ h => h⟩
    -- a pair that is matched at once
    have now : ∀ s2 : St, s2.visited = (p, a) :: s.visited → Grow s s2 → Just g k s2 (p, a) →
        Step g k s s2 ∧ (p, a) ∈ s2.visited := by
      intro s2 hv hgr hj
      refine ⟨⟨hgr, fun x hx => ?_⟩, by rw [hv]; exact List.mem_cons_self⟩
      rw [hv] at hx
      rcases List.mem_cons.1 hx with rfl | hx
      · exact .inr hj
      · exact .inl hx
    split at h
    · rename_i v hp
      split at h
      · rename_i hv
        cases hl : s.get v with
        | some t =>
          have hl1 : St.get { s with visited := (p, a) :: s.visited } v = some t := hl
          rw [hl1] at h
          simp only [Option.some.injEq, Prod.mk.injEq, beq_iff_eq] at h
          obtain ⟨rfl, rfl⟩ := h
          refine now _ rfl hg ?_
          simp only [Just, hp, hv, if_true]
          exact hl
        | none =>
          have hl1 : St.get { s with visited := (p, a) :: s.visited } v = none := hl
          rw [hl1] at h
          simp only [Option.some.injEq, Prod.mk.injEq, true_and] at h
          subst h
          refine now _ rfl ⟨hg.1, fun w t hw => ?_⟩ ?_
          · have hne : w ≠ v := by rintro rfl; rw [hl] at hw; cases hw
            simp only [St.get, List.lookup_cons]
            rw [show (w == v) = false from by simpa using hne]
            exact hw
          · simp [Just, hp, hv, St.get, List.lookup_cons]
      · rename_i hv
        simp only [Option.some.injEq, Prod.mk.injEq, beq_iff_eq] at h
        obtain ⟨ha, rfl⟩ := h
        refine now _ rfl hg ?_
        simp only [Just, hp, hv, if_false]
        exact ha
    · rename_i h1 cs h2 cs' hp ha
      split at h
      · rename_i hc
        obtain ⟨h3, h4⟩ := matchAll_step ih _ _ _ h
        have hin : (p, a) ∈ s'.visited := h3.1.1 _ List.mem_cons_self
        refine ⟨⟨hg.trans h3.1, fun x hx => ?_⟩, hin⟩
        rcases h3.2 x hx with hx | hx
        · rcases List.mem_cons.1 hx with rfl | hx
          · refine .inr ?_
            simp only [Just, hp]
            exact ⟨cs', by rw [ha, hc.1], hc.2, h4⟩
          · exact .inl hx
        · exact .inr hx
      · cases h
    · cases h

/-! ## Matches are found -/

theorem matchAll_some {f : Nat → Nat → St → Option (Bool × St)} {Q : St → Prop} (B : Nat → Nat → Prop)
    (hf : ∀ p a s b s', B p a → Q s → f p a s = some (b, s') → b = true ∧ Q s')
    (l : List (Nat × Nat)) : ∀ s b s', (∀ x ∈ l, B x.1 x.2) → Q s → matchAll f l s = some (b, s') →
      b = true ∧ Q s' := by
  induction l with
  | nil => intro s b s' _ hq h; cases h; exact ⟨rfl, hq⟩
  | cons y t ih =>
    obtain ⟨p, a⟩ := y
    intro s b s' hB hq h
    have hb := hB (p, a) List.mem_cons_self
    simp only [matchAll] at h
    split at h
    · cases h
    · rename_i s1 h1
      cases h
      exact hf _ _ _ _ _ hb hq h1
    · rename_i s1 h1
      exact ih _ _ _ (fun x hx => hB x (List.mem_cons_of_mem _ hx)) (hf _ _ _ _ _ hb hq h1).2 h

/-! ## The search ends -/

/-- The pairs visited are different pairs of a table of `N` types. -/
def Bounded (N : Nat) (s : St) : Prop := s.visited.Nodup ∧ ∀ x ∈ s.visited, x.1 < N ∧ x.2 < N

theorem Bounded.length {N : Nat} {s : St} (h : Bounded N s) : s.visited.length ≤ N * N := by
  rw [← List.toFinset_card_of_nodup h.1]
  calc s.visited.toFinset.card ≤ (Finset.range N ×ˢ Finset.range N).card := by
        refine Finset.card_le_card fun x hx => ?_
        have := h.2 x (by simpa using hx)
        simp only [Finset.mem_product, Finset.mem_range]
        exact this
    _ = N * N := by simp

theorem matchAll_ends {f : Nat → Nat → St → Option (Bool × St)} {N m : Nat}
    (hf : ∀ p a s, p < N → a < N → Bounded N s → m ≤ s.visited.length →
      ∃ b s', f p a s = some (b, s') ∧ Bounded N s' ∧ s.visited.length ≤ s'.visited.length)
    (l : List (Nat × Nat)) : ∀ s, (∀ x ∈ l, x.1 < N ∧ x.2 < N) → Bounded N s → m ≤ s.visited.length →
      ∃ b s', matchAll f l s = some (b, s') ∧ Bounded N s' ∧ s.visited.length ≤ s'.visited.length := by
  induction l with
  | nil => intro s _ hb _; exact ⟨true, s, rfl, hb, le_refl _⟩
  | cons y t ih =>
    obtain ⟨p, a⟩ := y
    intro s hl hb hm
    obtain ⟨hp, ha⟩ := hl (p, a) List.mem_cons_self
    obtain ⟨b, s1, h1, h2, h3⟩ := hf p a s hp ha hb hm
    cases b with
    | false => exact ⟨false, s1, by simp only [matchAll, h1], h2, h3⟩
    | true =>
      obtain ⟨b, s2, h4, h5, h6⟩ := ih s1 (fun x hx => hl x (List.mem_cons_of_mem _ hx)) h2 (by omega)
      exact ⟨b, s2, by simp only [matchAll, h1, h4], h5, by omega⟩

theorem matchTy_ends {g : Graph} {k N : Nat} (hg : ∀ p h cs, p < N → g p = .node h cs → ∀ c ∈ cs, c < N)
    (n : Nat) : ∀ p a s, p < N → a < N → Bounded N s → N * N - s.visited.length < n →
      ∃ b s', matchTy g k n p a s = some (b, s') ∧ Bounded N s' ∧ s.visited.length ≤ s'.visited.length := by
  induction n with
  | zero => intro p a s _ _ _ h; omega
  | succ n ih =>
    intro p a s hp ha hb hn
    simp only [matchTy]
    split
    · exact ⟨_, _, rfl, hb, le_refl _⟩
    rename_i hnew
    have hb1 : Bounded N { s with visited := (p, a) :: s.visited } := by
      refine ⟨List.nodup_cons.2 ⟨hnew, hb.1⟩, fun x hx => ?_⟩
      rcases List.mem_cons.1 hx with rfl | hx
      · exact ⟨hp, ha⟩
      · exact hb.2 x hx
    have hlen := hb1.length
    simp only [List.length_cons] at hlen
    split
    · split
      · split
        · exact ⟨_, _, rfl, hb1, by simp⟩
        · exact ⟨_, _, rfl, hb1, by simp⟩
      · exact ⟨_, _, rfl, hb1, by simp⟩
    · rename_i h1 cs h2 cs' hp' ha'
      split
      · obtain ⟨b, s2, h3, h4, h5⟩ := matchAll_ends (f := matchTy g k n) (N := N)
          (m := s.visited.length + 1)
          (fun p a s' hp ha hb hm => ih p a s' hp ha hb (by omega)) (cs.zip cs') _ (by
            intro x hx
            obtain ⟨hx1, hx2⟩ := List.of_mem_zip (a := x.1) (b := x.2) hx
            exact ⟨hg p _ _ hp hp' _ hx1, hg a _ _ ha ha' _ hx2⟩) hb1 (by simp)
        refine ⟨b, s2, h3, h4, ?_⟩
        simp only [List.length_cons] at h5
        omega
      · exact ⟨_, _, rfl, hb1, by simp⟩
    · exact ⟨_, _, rfl, hb1, by simp⟩

/-! ## The order of names -/

open Std

theorem trans_on {α β : Type} (f : α → β) (c : β → β → Ordering) [hc : TransCmp c] :
    TransCmp fun a b => c (f a) (f b) where
  eq_swap := OrientedCmp.eq_swap (cmp := c)
  isLE_trans := TransCmp.isLE_trans (cmp := c)

theorem trans_flip {α : Type} (c : α → α → Ordering) [TransCmp c] : TransCmp fun a b => c b a where
  eq_swap := OrientedCmp.eq_swap (cmp := c)
  isLE_trans := fun h1 h2 => TransCmp.isLE_trans (cmp := c) h2 h1

theorem trans_then {α : Type} (c d : α → α → Ordering) [hc : TransCmp c] [hd : TransCmp d] :
    TransCmp fun a b => (c a b).then (d a b) :=
  inferInstanceAs (TransCmp (compareLex c d))

instance score_trans : TransCmp score := by
  have h1 := trans_on Shown.concrete (compare : Nat → Nat → Ordering)
  have h2 := trans_on (fun x : Shown => x.args.map fun a => if a.isSome then 1 else 0)
    (List.compareLex (compare : Nat → Nat → Ordering))
  have h3 := trans_on (fun x : Shown => x.entry.name.length)
    (fun a b => (compare : Nat → Nat → Ordering) b a) (hc := trans_flip compare)
  have h4 := trans_on (fun x : Shown => x.entry.name)
    (fun a b => List.compareLex (compare : Nat → Nat → Ordering) b a) (hc := trans_flip _)
  have h34 := trans_then _ _ (hc := h3) (hd := h4)
  have h234 := trans_then _ _ (hc := h2) (hd := h34)
  exact trans_then _ _ (hc := h1) (hd := h234)

theorem score_eq {x y : Shown} (h : score x y = .eq) : x.entry.name = y.entry.name := by
  unfold score at h
  simp only [Ordering.then_eq_eq] at h
  exact (LawfulEqCmp.eq_of_compare h.2.2.2).symm

theorem score_self (x : Shown) : (score x x).isLE = true := by
  rw [ReflCmp.compare_self (cmp := score)]
  rfl

theorem maxBy_spec {l : List Shown} {m : Shown} (h : maxBy score l = some m) :
    m ∈ l ∧ ∀ y ∈ l, (score y m).isLE = true := by
  cases l with
  | nil => cases h
  | cons x t =>
    simp only [maxBy, Option.some.injEq] at h
    subst h
    induction t generalizing x with
    | nil => simp [score_self]
    | cons z t ih =>
      simp only [List.foldl_cons]
      obtain ⟨h1, h2⟩ := ih (if score x z = .gt then x else z)
      have hx : (score x (if score x z = .gt then x else z)).isLE = true := by
        split
        · exact score_self x
        · rename_i hn
          cases hs : score x z with
          | lt => rfl
          | eq => rfl
          | gt => exact absurd hs hn
      have hz : (score z (if score x z = .gt then x else z)).isLE = true := by
        split
        · rename_i hn
          rw [OrientedCmp.eq_swap (cmp := score), hn]
          rfl
        · exact score_self z
      have htop := h2 _ List.mem_cons_self
      refine ⟨?_, fun y hy => ?_⟩
      · rcases List.mem_cons.1 h1 with h | h
        · rw [h]
          split <;> simp
        · exact List.mem_cons_of_mem _ (List.mem_cons_of_mem _ h)
      · rcases List.mem_cons.1 hy with rfl | hy
        · exact TransCmp.isLE_trans hx htop
        · rcases List.mem_cons.1 hy with rfl | hy
          · exact TransCmp.isLE_trans hz htop
          · exact h2 y (List.mem_cons_of_mem _ hy)

end Ferlium.AliasName
