import Verif.Proofs.TypeRewrite
import Verif.Props.TypeRewrite

/-!
# C90: types saved in a snapshot are restored

A snapshot copies the graph of types behind some handles, without handles, and another process stores it
in its own table.  The restored handles must stand for the same types, recursive or not.
-/

namespace Ferlium.Intern

variable {eff : Nat → List (List Nat)} {le le' : Kind → Kind → Bool}

theorem ruleTree_capture {look : Look} : ∀ (n : Nat) (r : Ref), ruleTree look captureRules n r = Intern.unfold look n r
  | 0, _ => rfl
  | n + 1, r => by
    rw [ruleTree, Intern.unfold]
    simp only [captureRules]
    cases look r with
    | none => rfl
    | some k =>
      simp only [Tree.node.injEq, true_and]
      exact List.map_congr_left fun s _ => ruleTree_capture n s

theorem capture_fine (look : Look) : Fine look captureRules :=
  ⟨fun _ _ _ _ h => by simp [captureRules] at h, fun _ k hk _ => ⟨k, hk⟩⟩

/-- A captured graph has no handles in it, and may be stored in any table. -/
theorem capture_batch {U U₂ : Universe} (hI : Inv eff U) {s : Walk} (hs : WalkOk U.look s)
    (hfill : ∀ i, i < s.out.length → Filled U.look captureRules s i) : Batch eff U₂ s.out := by
  have hstop : ∀ r k g, U.look r = some k → captureRules.stop r = some g → Same (batch U₂ s.out) U.look g g :=
    fun _ _ _ _ h => by simp [captureRules] at h
  have hkid : ∀ k ∈ s.out, ∀ r ∈ k.kids, ∃ i, r = .loc i ∧ i < s.out.length := by
    intro k hk r hr
    obtain ⟨i, hi, rfl⟩ := List.mem_iff_getElem.1 hk
    obtain ⟨q, kq, kids, _, e2, e3, e4⟩ := hfill i hi
    rw [List.getElem?_eq_getElem hi, Option.some.injEq] at e3
    rw [e3] at hr
    obtain ⟨a, _, hab⟩ := forall2_mem_right e4 hr
    rcases hab with hab | ⟨_, j, h2, rfl⟩
    · simp [captureRules] at hab
    · exact ⟨j, rfl, hs.idx _ _ h2⟩
  have hmean : ∀ i, i < s.out.length → ∃ q k, s.seen.lookup q = some i ∧ U.look q = some k ∧
      Same (batch U₂ s.out) U.look (.loc i) q := by
    intro i hi
    obtain ⟨q, kq, kids, e1, e2, _, _⟩ := hfill i hi
    refine ⟨q, kq, e1, e2, fun n => ?_⟩
    rw [rep_tree hI.closed hs hfill hstop n q (.loc i) kq e2 (.inr ⟨rfl, i, e1, rfl⟩), ruleTree_capture]
  refine ⟨fun k hk r hr => ?_, fun k hk d e hde => ?_, fun i r hc hr hsame => ?_⟩
  · obtain ⟨i, rfl, hi⟩ := hkid k hk r hr
    exact ⟨s.out[i], List.getElem?_eq_getElem hi⟩
  · obtain ⟨i, hi, rfl⟩ := List.mem_iff_getElem.1 hk
    obtain ⟨q, kq, kids, _, e2, e3, _⟩ := hfill i hi
    rw [List.getElem?_eq_getElem hi, Option.some.injEq] at e3
    rw [e3] at hde
    exact (hI.effects _ _ e2).1 d e hde
  · have hr' : ∃ j, r = .loc j ∧ j < s.out.length := by
      have key : ∀ r', Reaches (batch U₂ s.out) (.loc i) r' → ∃ j, r' = .loc j ∧ j < s.out.length := by
        intro r' h
        induction h with
        | one hu =>
          obtain ⟨k, hk, hm⟩ := hu
          exact hkid k (List.mem_of_getElem? hk) _ hm
        | more _ hu ih =>
          obtain ⟨j, rfl, hj⟩ := ih
          obtain ⟨k, hk, hm⟩ := hu
          exact hkid k (List.mem_of_getElem? hk) _ hm
      exact key r hr
    obtain ⟨j, rfl, hj⟩ := hr'
    obtain ⟨k, hk⟩ := hc.source
    have hi : i < s.out.length := (List.getElem?_eq_some_iff.1 (hk : s.out[i]? = some k)).1
    obtain ⟨q, kq, a1, a2, a3⟩ := hmean i hi
    obtain ⟨q', kq', b1, b2, b3⟩ := hmean j hj
    have := hI.canon q q' _ _ a2 b2 ((a3.symm.trans hsame).trans b3)
    subst this
    rw [a1] at b1; cases b1; rfl

/-- Capturing succeeds for types of a table, and restoring it in any other table succeeds.  Each restored
handle stands for the type that was captured. -/
theorem C90_restored_partial {order : List Nat → List Nat} (ho : ∀ l, (order l).Perm l) {U U₂ : Universe}
    (hU : Built eff le U) (hU₂ : Built eff le' U₂) {rs : List Ref} (hr : ∀ r ∈ rs, ∃ k, U.look r = some k) :
    ∃ kinds ids U₂' rs', capture U rs = some (kinds, ids) ∧ materialize order le' U₂ kinds ids = some (U₂', rs') ∧
      Later eff le' U₂ U₂' ∧
      List.Forall₂ (fun r r' => (∃ k, U₂'.look r' = some k) ∧ Same U.look U₂'.look r r') rs rs' := by
  have hI := hU.inv
  obtain ⟨s, ids, hw, hs, hfill, hrep⟩ := walk_spec hI.closed (capture_fine U.look) hr
  have hb : Batch eff U₂ s.out := capture_batch hI hs hfill
  have hnorm := out_normal hI (f := captureRules) (fun k kids hk hl => hk.of_head rfl hl) hfill
  have hstop : ∀ r k g, U.look r = some k → captureRules.stop r = some g → Same (batch U₂ s.out) U.look g g :=
    fun _ _ _ _ h => by simp [captureRules] at h
  obtain ⟨U', types, h1, _, h3, h4⟩ := C88_stored_partial (le := le') ho hU₂ (kinds := s.out) (by rw [hnorm]; exact hb)
  rw [hnorm] at h4
  have hlater : Later eff le' U₂ U' := .store .now ho (by rw [hnorm]; exact hb) h1
  obtain ⟨l, hl1, hl2⟩ := forall2_mapM (g := remap types) (P := fun r r' => (∃ k, U'.look r' = some k) ∧
      Same U.look U'.look r r') (l := rs) (l' := ids) (by
    refine forall2_imp ?_ (forall2_valid hrep hr)
    rintro r r' ⟨h5, k, hk⟩
    have ht := fun n => rep_tree (U₂ := U₂) hI.closed hs hfill hstop n r r' k hk h5
    rcases h5 with h5 | ⟨_, i, h7, rfl⟩
    · simp [captureRules] at h5
    · have hi : i < types.length := by rw [h3]; exact hs.idx _ _ h7
      obtain ⟨h8, h9⟩ := h4 i types[i] (List.getElem?_eq_getElem hi)
      refine ⟨types[i], List.getElem?_eq_getElem hi, h8, fun n => ?_⟩
      rw [h9 n, ht n, ruleTree_capture])
  exact ⟨s.out, ids, U', l, by simp [capture, hw], by simp [materialize, h1, hl1], hlater, hl2⟩

/-- In the same process, at any later time, the same handles come back, and types that differ stay
different. -/
theorem C90_same_process_partial {order : List Nat → List Nat} (ho : ∀ l, (order l).Perm l) {U U₂ : Universe}
    (hU : Built eff le U) (hl : Later eff le U U₂) {rs : List Ref} (hr : ∀ r ∈ rs, ∃ k, U.look r = some k) :
    ∃ kinds ids U₂', capture U rs = some (kinds, ids) ∧ materialize order le U₂ kinds ids = some (U₂', rs) := by
  obtain ⟨hU₂, hkept⟩ := C88_kept_partial hU hl
  obtain ⟨kinds, ids, U', rs', h1, h2, h3, h4⟩ := C90_restored_partial ho hU hU₂ hr
  obtain ⟨hU', hkept'⟩ := C88_kept_partial hU₂ h3
  have : rs = rs' := by
    have := forall2_valid h4 hr
    clear h1 h2 h4 hr
    induction this with
    | nil => rfl
    | cons hab _ ih =>
      obtain ⟨⟨⟨k', hk'⟩, hs⟩, k, hk⟩ := hab
      obtain ⟨a1, a2⟩ := hkept _ _ hk
      obtain ⟨b1, b2⟩ := hkept' _ _ a1
      rw [ih, hU'.inv.canon _ _ _ _ b1 hk' (((a2.trans b2).symm).trans hs)]
  subst this
  exact ⟨kinds, ids, U', h1, h2⟩

/-- Different types are restored as different types, equal types as equal types. -/
theorem C90_distinct_partial {U U₂ : Universe} (hU : Built eff le U) (hU₂ : Built eff le' U₂) {r₁ r₂ r₁' r₂' : Ref}
    {k₁ k₂ k₁' k₂' : Kind} (h₁ : U.look r₁ = some k₁) (h₂ : U.look r₂ = some k₂) (h₁' : U₂.look r₁' = some k₁')
    (h₂' : U₂.look r₂' = some k₂') (s₁ : Same U.look U₂.look r₁ r₁') (s₂ : Same U.look U₂.look r₂ r₂') :
    r₁ = r₂ ↔ r₁' = r₂' := by
  rw [C88_canonical_partial hU h₁ h₂, C88_canonical_partial hU₂ h₁' h₂']
  exact ⟨fun h => (s₁.symm.trans h).trans s₂, fun h => (s₁.trans h).trans s₂.symm⟩

/-- The generic tree of `Verif.Props.TypeRewrite`, saved and restored in a table with other types: the
hypotheses hold. -/
example : Built (fun _ => []) exLe2 exStored ∧ Built (fun _ => []) exLe exEquation ∧
    (∀ r ∈ [Ref.glob 1 0, .glob 0 2], ∃ k, exStored.look r = some k) ∧
    capture exStored [.glob 1 0, .glob 0 2] =
      some ([⟨.variant ["Leaf", "Left", "Right"], [.loc 1, .loc 2, .loc 4]⟩, ⟨.tuple, []⟩, ⟨.tuple, [.loc 3, .loc 0]⟩,
        ⟨.var 0, []⟩, ⟨.tuple, [.loc 5, .loc 0]⟩, ⟨.var 1, []⟩], [.loc 0, .loc 3]) := by
  refine ⟨exStored_built _, exEquation_built _, ?_, by decide +kernel⟩
  intro r hr
  simp only [List.mem_cons, List.not_mem_nil, or_false] at hr
  rcases hr with rfl | rfl
  · exact ⟨_, rfl⟩
  · exact ⟨_, rfl⟩

end Ferlium.Intern
