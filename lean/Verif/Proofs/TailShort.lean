import Verif.Model.TailMerge
import Verif.Proofs.BranchForward
import Verif.Proofs.EditMerge

/-! Skipping empty blocks preserves behaviour. -/
namespace Ferlium.TailMerge

open Ferlium.Mir

variable {V σ : Type} {W : World V σ} {f g : Body} {s : St V σ} {w : σ}

/-- An edge to `x` arrives at `z` after `n` empty blocks. -/
inductive Fwd (f : Body) : Nat → Nat → Nat → Prop
  | here {x : Nat} : Fwd f 0 x x
  | pass {n x y z : Nat} : f[x]? = some ⟨[], .goto y⟩ → Fwd f n y z → Fwd f (n + 1) x z

/-- How a terminator may be shortened. -/
inductive Short (f : Body) : Term → Term → Prop
  | map {t : Term} {m : Nat → Nat} : (∀ x ∈ t.successors, ∃ n, Fwd f n x (m x)) → Short f t (mapTargets m t)
  | collapse {c : Value} {x y z n k : Nat} : Fwd f n x z → Fwd f k y z → Short f (.condBr c x y) (.goto z)
  | terminal {x : Nat} {t : Term} : f[x]? = some ⟨[], t⟩ → isTerminal t = true → Short f (.goto x) t

theorem mapTargets_id (t : Term) : mapTargets (fun x => x) t = t := by cases t <;> rfl

theorem Short.refl {t : Term} : Short f t t := by
  have := Short.map (f := f) (t := t) (m := fun x => x) fun x _ => ⟨0, .here⟩
  rwa [mapTargets_id] at this

/-- Only terminators are shortened. -/
structure Shortened (f g : Body) : Prop where
  len : g.length = f.length
  blocks : ∀ (b : Nat) (blk : Block), f[b]? = some blk → ∃ t, g[b]? = some { blk with term := t } ∧ Short f blk.term t

/-- The relation between the executions; the second one may be ahead. -/
inductive Rel (W : World V σ) (f g : Body) : Nat → Config V σ → Config V σ → Prop
  | done x : Rel W f g 0 (.done x) (.done x)
  | same {ops t t' s} : (∀ x ∈ t.successors, x < f.length) → Short f t t' → Rel W f g 2 (.at ops t s) (.at ops t' s)
  | final {t s} : isTerminal t = true → Rel W f g 1 (.at [] t s) (.at [] t s)
  | lag {n y z s} : y < f.length → z < f.length → Fwd f n y z → Rel W f g (n + 3) (.at [] (.goto y) s) (enter g z s)

theorem fwd_lt (hr : InRange f) {n x z : Nat} (h : Fwd f n x z) (hx : x < f.length) : z < f.length := by
  induction h with
  | here => exact hx
  | pass h1 _ ih => exact ih (hr _ (List.mem_of_getElem? h1) _ (by simp [Term.successors]))

theorem rel_enter (hr : InRange f) (hE : Shortened f g) {n x z : Nat} (hx : x < f.length) (h : Fwd f n x z) :
    ∃ m, m ≤ n + 2 ∧ Rel W f g m (enter f x s) (enter g z s) := by
  cases h with
  | here =>
    have hb := List.getElem?_eq_getElem hx
    obtain ⟨t, h1, h2⟩ := hE.blocks x _ hb
    refine ⟨2, by omega, ?_⟩
    unfold enter
    rw [hb, h1]
    exact .same (fun y hy => hr _ (List.mem_of_getElem? hb) y hy) h2
  | @pass n _ y _ h1 h2 =>
    have hy := hr _ (List.mem_of_getElem? h1) y (by simp [Term.successors])
    refine ⟨n + 3, by omega, ?_⟩
    have : enter f x s = .at [] (.goto y) s := by unfold enter; rw [h1]
    rw [this]
    exact .lag hy (fwd_lt hr h2 hy) h2

theorem rel_step (hr : InRange f) (hE : Shortened f g) {n : Nat} {c c' : Config V σ} (h : Rel W f g n c c')
    (hs : SafeFrom W f c) :
    (∃ m, Rel W f g m (step W f c) (step W g c')) ∨ ∃ m, m < n ∧ Rel W f g m (step W f c) c' := by
  cases h with
  | done x => exact Or.inl ⟨0, .done x⟩
  | @same ops t t' s hlt h =>
    cases ops with
    | cons op ops =>
      left
      simp only [step]
      cases execOp W op.direct op s with
      | ok s1 => exact ⟨2, .same hlt h⟩
      | error s1 => exact ⟨0, .done _⟩
      | halt w => exact ⟨0, .done _⟩
      | stuck => exact ⟨0, .done _⟩
    | nil =>
      cases h with
      | @map t m hm =>
        left
        have hgo : ∀ x ∈ t.successors, ∀ s : St V σ, ∃ k, Rel W f g k (enter f x s) (enter g (m x) s) := by
          intro x hx s
          obtain ⟨n, hn⟩ := hm x hx
          obtain ⟨k, _, hk⟩ := rel_enter (W := W) (s := s) hr hE (hlt x hx) hn
          exact ⟨k, hk⟩
        cases t with
        | goto x => exact hgo x (by simp [Term.successors]) s
        | condBr c x y =>
          simp only [step, mapTargets, stepTerm]
          split
          · exact hgo x (by simp [Term.successors]) s
          · exact hgo y (by simp [Term.successors]) s
          · exact ⟨0, .done _⟩
        | invoke op x y =>
          simp only [step, mapTargets, stepTerm]
          split
          · exact hgo x (by simp [Term.successors]) _
          · exact hgo y (by simp [Term.successors]) _
          · exact ⟨0, .done _⟩
          · exact ⟨0, .done _⟩
        | yield v x =>
          simp only [step, mapTargets, stepTerm]
          split
          · split
            · exact hgo x (by simp [Term.successors]) _
            · exact ⟨0, .done _⟩
          · exact ⟨0, .done _⟩
        | ret => exact ⟨0, .done _⟩
        | propagateError => exact ⟨0, .done _⟩
        | cleanupFailure => exact ⟨0, .done _⟩
      | @collapse c x y z n k h1 h2 =>
        left
        have hstuck := hs 1
        simp only [run, step, stepTerm] at hstuck ⊢
        split at hstuck
        · rename_i he
          obtain ⟨k, _, hk⟩ := rel_enter (W := W) (s := s) hr hE (hlt x (by simp [Term.successors])) h1
          exact ⟨k, hk⟩
        · rename_i he
          obtain ⟨k, _, hk⟩ := rel_enter (W := W) (s := s) hr hE (hlt y (by simp [Term.successors])) h2
          exact ⟨k, hk⟩
        · exact absurd rfl hstuck
      | @terminal x t h1 h2 =>
        right
        refine ⟨1, by omega, ?_⟩
        simp only [step, stepTerm, enter, h1]
        exact .final h2
  | @final t s h =>
    left
    refine ⟨0, ?_⟩
    cases t <;> simp [isTerminal] at h <;> exact .done _
  | @lag n y z s hy hz h =>
    right
    obtain ⟨m, hm, h1⟩ := rel_enter (W := W) (s := s) hr hE hy h
    exact ⟨m, by omega, h1⟩

theorem shortened_same (hr : InRange f) (hE : Shortened f g) (hne : f ≠ []) (hs : Safe W f w) : SameBehaviour W f g w := by
  refine sim_indexed (fun n c c' => Rel W f g n c c' ∧ SafeFrom W f c) ?_ ?_ ?_ ?_ ?_
  · rintro n c c' ⟨h, _⟩
    cases h with
    | done x => rfl
    | same _ _ => rfl
    | final _ => rfl
    | @lag n y z s hy hz h =>
      obtain ⟨t, h1, _⟩ := hE.blocks z _ (List.getElem?_eq_getElem hz)
      unfold enter
      rw [h1]
      rfl
  · rintro n x c' ⟨h, _⟩
    cases h; rfl
  · rintro n x c ⟨h, _⟩
    generalize hc : (Config.done x : Config V σ) = c' at h
    cases h with
    | done y => rfl
    | same _ _ => cases hc
    | final _ => cases hc
    | @lag n y z s hy hz h =>
      obtain ⟨t, h1, _⟩ := hE.blocks z _ (List.getElem?_eq_getElem hz)
      unfold enter at hc
      rw [h1] at hc
      cases hc
  · rintro n c c' ⟨h, hsafe⟩
    rcases rel_step hr hE h hsafe with ⟨m, h1⟩ | ⟨m, hm, h1⟩
    · exact Or.inl ⟨m, h1, hsafe.step⟩
    · exact Or.inr ⟨m, hm, h1, hsafe.step⟩
  · obtain ⟨m, _, h⟩ := rel_enter (W := W) (s := ⟨fun _ => none, w⟩) hr hE (x := 0) (List.length_pos_iff.2 hne) .here
    exact ⟨m, h, safeFrom_start hs⟩

theorem shortened_inRange (hr : InRange f) (hE : Shortened f g) : InRange g := by
  intro b hb t ht
  obtain ⟨i, hi⟩ := List.getElem?_of_mem hb
  have hlt : i < f.length := by rw [← hE.len]; exact (List.getElem?_eq_some_iff.1 hi).1
  have hfi := List.getElem?_eq_getElem hlt
  obtain ⟨t', h1, h2⟩ := hE.blocks i _ hfi
  rw [hi] at h1
  cases h1
  rw [hE.len]
  have hmem : ∀ x ∈ f[i].term.successors, x < f.length := fun x hx => hr _ (List.mem_of_getElem? hfi) x hx
  revert hmem ht
  simp only []
  generalize f[i].term = t0 at h2
  intro ht hmem
  cases h2 with
  | @map t m hm =>
    have key : ∀ x ∈ t0.successors, m x < f.length := fun x hx => by
      obtain ⟨n, hn⟩ := hm x hx
      exact fwd_lt hr hn (hmem x hx)
    cases t0 <;> simp [mapTargets, Term.successors] at ht key ⊢ <;> (try rcases ht with rfl | rfl) <;> simp_all
  | @collapse c x y z n k h1 h2 =>
    simp [Term.successors] at ht
    rw [ht]
    exact fwd_lt hr h1 (hmem x (by simp [Term.successors]))
  | @terminal x t h1 h2 => cases t' <;> simp [isTerminal] at h2 <;> simp [Term.successors] at ht

/-! ### The folds -/

theorem forwardLoop_spec (hr : InRange f) : ∀ (n x : Nat), x < f.length →
    ∃ r, forwardLoop f n x = some r ∧ ∀ z, r = some z → ∃ k, Fwd f k x z := by
  intro n
  induction n with
  | zero => intro x _; exact ⟨none, rfl, by simp⟩
  | succ n ih =>
    intro x hx
    have hb := List.getElem?_eq_getElem hx
    have hmem := List.mem_of_getElem? hb
    unfold forwardLoop
    rw [hb]
    simp only []
    have hself : ∃ r, (some (some x) : Option (Option Nat)) = some r ∧ ∀ z, r = some z → ∃ k, Fwd f k x z :=
      ⟨some x, rfl, fun z hz => by cases hz; exact ⟨0, .here⟩⟩
    split
    · rename_i hops
      split
      · rename_i t ht
        split
        · obtain ⟨r, h1, h2⟩ := ih t (hr _ hmem t (by rw [ht]; simp [Term.successors]))
          refine ⟨r, h1, fun z hz => ?_⟩
          obtain ⟨k, hk⟩ := h2 z hz
          refine ⟨k + 1, .pass ?_ hk⟩
          rw [hb]
          have h3 : f[x].ops = [] := by simpa using hops
          rw [← h3, ← ht]
        · exact hself
      · exact hself
    · exact hself

theorem forwardedTarget_spec (hr : InRange f) (limit : Nat) {x : Nat} (hx : x < f.length) :
    ∃ z, forwardedTarget f limit x = some z ∧ ∃ k, Fwd f k x z := by
  obtain ⟨r, h1, h2⟩ := forwardLoop_spec hr limit x hx
  unfold forwardedTarget
  rw [h1]
  cases r with
  | none => exact ⟨x, rfl, 0, .here⟩
  | some z => exact ⟨z, rfl, h2 z rfl⟩

theorem short_collapse {t : Term} {m : Nat → Nat} (h : ∀ x ∈ t.successors, ∃ n, Fwd f n x (m x)) :
    Short f t (collapse (mapTargets m t)) := by
  cases t with
  | condBr c x y =>
    simp only [mapTargets, collapse]
    split
    · rename_i he
      obtain ⟨n, hn⟩ := h x (by simp [Term.successors])
      obtain ⟨k, hk⟩ := h y (by simp [Term.successors])
      exact .collapse hn (he ▸ hk)
    · exact .map h
  | _ => exact .map h

theorem retarget_spec {m : Nat → Option Nat} {t : Term} (h : ∀ x ∈ t.successors, ∃ z, m x = some z) :
    Edit.retarget m t = some (mapTargets (fun x => (m x).getD 0) t) := by
  cases t <;> simp [Term.successors] at h
  case goto x => obtain ⟨z, hz⟩ := h; simp [Edit.retarget, mapTargets, hz]
  case condBr c x y => obtain ⟨⟨z, hz⟩, z', hz'⟩ := h; simp [Edit.retarget, mapTargets, hz, hz']
  case invoke op x y => obtain ⟨⟨z, hz⟩, z', hz'⟩ := h; simp [Edit.retarget, mapTargets, hz, hz']
  case yield v x => obtain ⟨z, hz⟩ := h; simp [Edit.retarget, mapTargets, hz]
  all_goals rfl

theorem Shortened.refl : Shortened f f := ⟨rfl, fun _ blk h => ⟨blk.term, h, .refl⟩⟩

theorem shortened_set {b : Nat} {blk : Block} {t : Term} (hb : f[b]? = some blk) (h : Short f blk.term t) :
    Shortened f (f.set b { blk with term := t }) := by
  refine ⟨by simp, ?_⟩
  intro i bi hi
  by_cases hib : b = i
  · subst hib
    rw [hb] at hi
    cases hi
    refine ⟨t, ?_, h⟩
    simp [(List.getElem?_eq_some_iff.1 hb).1]
  · exact ⟨bi.term, by rw [List.getElem?_set_ne hib]; exact hi, .refl⟩

theorem foldForwardingAt_spec (hr : InRange f) (limit : Nat) {b : Nat} (hb : b < f.length) :
    ∃ g, foldForwardingAt limit f b = some g ∧ Shortened f g := by
  have hget := List.getElem?_eq_getElem hb
  unfold foldForwardingAt
  rw [hget]
  simp only []
  have hlt : ∀ x ∈ f[b].term.successors, x < f.length := fun x hx => hr _ (List.mem_of_getElem? hget) x hx
  rw [retarget_spec fun x hx => (forwardedTarget_spec hr limit (hlt x hx)).imp fun _ h => h.1]
  refine ⟨_, rfl, ?_⟩
  simp only []
  split
  · exact .refl
  · refine shortened_set hget (short_collapse ?_)
    intro x hx
    obtain ⟨z, h1, h2⟩ := forwardedTarget_spec hr limit (hlt x hx)
    rw [h1]
    exact h2

theorem foldTerminalAt_spec (hr : InRange f) {b : Nat} (hb : b < f.length) :
    ∃ g, foldTerminalAt f b = some g ∧ Shortened f g := by
  have hget := List.getElem?_eq_getElem hb
  unfold foldTerminalAt
  rw [hget]
  simp only []
  split
  · rename_i t ht
    have hlt : t < f.length := hr _ (List.mem_of_getElem? hget) t (by rw [ht]; simp [Term.successors])
    rw [List.getElem?_eq_getElem hlt]
    refine ⟨_, rfl, ?_⟩
    split
    · rename_i he
      simp only [isEmptyTerminal, Bool.and_eq_true, List.isEmpty_iff] at he
      refine shortened_set hget ?_
      rw [ht]
      refine .terminal (x := t) ?_ he.2
      rw [List.getElem?_eq_getElem hlt, ← he.1]
    · exact .refl
  · exact ⟨f, rfl, .refl⟩

/-- A sequence of shortenings. -/
structure Shorter (f g : Body) : Prop where
  len : g.length = f.length
  inRange : InRange g
  same : ∀ (V σ : Type) (W : World V σ) (w : σ), Safe W f w → SameBehaviour W f g w

theorem fold_shorter {step : Body → Nat → Option Body} (hne : f ≠ []) (hr : InRange f)
    (hstep : ∀ (h : Body) (b : Nat), InRange h → b < h.length → ∃ g, step h b = some g ∧ Shortened h g) :
    ∀ (l : List Nat), (∀ b ∈ l, b < f.length) → ∃ g, l.foldlM step f = some g ∧ Shorter f g := by
  have key : ∀ (l : List Nat), (∀ b ∈ l, b < f.length) → ∀ h, Shorter f h →
      ∃ g, l.foldlM step h = some g ∧ Shorter f g := by
    intro l
    induction l with
    | nil => intro _ h hh; exact ⟨h, rfl, hh⟩
    | cons b l ih =>
      intro hl h hh
      obtain ⟨g, h1, h2⟩ := hstep h b hh.inRange (by rw [hh.len]; exact hl b (by simp))
      simp only [List.foldlM_cons, h1, Option.bind_eq_bind, Option.bind_some]
      apply ih (fun b hb => hl b (by simp [hb]))
      refine ⟨h2.len.trans hh.len, shortened_inRange hh.inRange h2, ?_⟩
      intro V σ W w hs
      have h3 := hh.same V σ W w hs
      refine h3.trans (shortened_same hh.inRange h2 ?_ (h3.safe hs))
      intro he
      have := hh.len
      rw [he] at this
      exact hne (List.length_eq_zero_iff.1 this.symm)
  exact fun l hl => key l hl f ⟨rfl, hr, fun _ _ _ w _ => sameBehaviour_refl w⟩

theorem Shorter.trans {h : Body} (a : Shorter f g) (b : Shorter g h) : Shorter f h :=
  ⟨b.len.trans a.len, b.inRange, fun V σ W w hs => (a.same V σ W w hs).trans (b.same V σ W w ((a.same V σ W w hs).safe hs))⟩

theorem foldForwarding_spec (hne : f ≠ []) (hr : InRange f) : ∃ g, foldForwarding f = some g ∧ Shorter f g :=
  fold_shorter hne hr (fun _ _ h hb => foldForwardingAt_spec h _ hb) _ (by simp)

theorem foldTerminals_spec (hne : f ≠ []) (hr : InRange f) : ∃ g, foldTerminals f = some g ∧ Shorter f g :=
  fold_shorter hne hr (fun _ _ h hb => foldTerminalAt_spec h hb) _ (by simp)

end Ferlium.TailMerge
