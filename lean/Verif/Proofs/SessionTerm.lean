import Verif.Proofs.SessionAffected
import Mathlib.Tactic

/-! The cascade ends: each nested recompilation concerns strictly fewer modules. -/
namespace Ferlium.Session

variable {T U : Type}

open Classical in
/-- The transitive dependents of `m`. -/
noncomputable def dependents (mods : List (Entry T U)) (m : Nat) : Finset Nat :=
  (Finset.range mods.length).filter fun y => Relation.TransGen (DepR mods) y m

theorem mem_dependents {mods : List (Entry T U)} {m y : Nat} : y ∈ dependents mods m ↔ Relation.TransGen (DepR mods) y m := by
  simp only [dependents, Finset.mem_filter, Finset.mem_range, and_iff_right_iff_imp]
  exact transGen_len

theorem card_dependents (mods : List (Entry T U)) (m : Nat) : (dependents mods m).card ≤ mods.length := by
  classical
  exact le_trans (Finset.card_filter_le _ _) (by simp)

/-- The dependents of `m` do not depend on what `m` depends on. -/
theorem dependents_other {mods mods' : List (Entry T U)} {m : Nat} (hac : ¬ Relation.TransGen (DepR mods') m m)
    (h : ∀ x : Nat, x ≠ m → (mods'[x]?).map Entry.deps = (mods[x]?).map Entry.deps) {y : Nat}
    (hy : Relation.TransGen (DepR mods') y m) : Relation.TransGen (DepR mods) y m := by
  have step : ∀ a b, a ≠ m → DepR mods' a b → DepR mods a b := by
    rintro a b ha ⟨e, h1, h2⟩
    have := h a ha
    rw [h1] at this
    simp only [Option.map_some] at this
    cases hm : mods[a]? with
    | none => simp [hm] at this
    | some e' =>
      simp only [hm, Option.map_some, Option.some.injEq] at this
      exact ⟨e', hm, this ▸ h2⟩
  have hym : y ≠ m := by rintro rfl; exact hac hy
  induction hy using Relation.TransGen.head_induction_on with
  | single h1 => exact .single (step _ _ hym h1)
  | @head a c h1 h2 ih =>
    have hcm : c ≠ m := by rintro rfl; exact hac h2
    exact .head (step _ _ hym h1) (ih hcm)

theorem compile_term [Inhabited U] {emit : T → U → List (Option (Rev T U)) → Nat → Option (List Nat)}
    (hemit : ∀ t u v i deps, emit t u v i = some deps → ∀ d ∈ deps, d < v.length) {sources : List T} :
    ∀ (fuel : Nat) {P : Nat → Prop} {mods : List (Entry T U)} (_ : Inv sources P mods) {target : Option Nat}
    (_ : ∀ id, target = some id → id < mods.length) {sourceId : Nat} (_ : sourceId < sources.length) (version : Nat) (uses : U),
    (dependents mods (target.getD mods.length)).card < fuel →
    ∃ mods', compile emit sources fuel mods target sourceId version uses = .ok mods' ∧
      ∀ x : Nat, x ≠ target.getD mods.length → ¬ Relation.TransGen (DepR mods) x (target.getD mods.length) →
        (mods'[x]?).map Entry.deps = (mods[x]?).map Entry.deps := by
  intro fuel
  induction fuel with
  | zero => intro P mods h target ht sourceId hs version uses hf; omega
  | succ fuel ih =>
    intro P mods h target ht sourceId hs version uses hf
    obtain ⟨modsA, b, h1, h2, h3⟩ := compileOne_spec hemit h ht hs version uses
    generalize target.getD mods.length = m at h1 h2 h3 hf ⊢
    have hdeps : ∀ x : Nat, x ≠ m → (modsA[x]?).map Entry.deps = (mods[x]?).map Entry.deps := by
      intro x hx
      have := congrArg (Option.map (fun i : Option (SrcInfo U) × Nat × List Nat => i.2.2)) (h3.others x hx)
      simpa [Option.map_map, Function.comp_def, info] using this
    unfold compile
    rw [h1]
    cases b with
    | false => exact ⟨modsA, rfl, fun x hx _ => hdeps x hx⟩
    | true =>
      have htk := staleDependents_spec modsA m
      have hw := waiting_iff modsA m
      rcases hsd : staleDependents modsA m with ⟨modsB, jobs⟩
      rw [hsd] at htk
      simp only [hsd] at hw
      show ∃ mods', (List.foldlM (fun mods job => compile emit sources fuel mods (some job.id) job.sourceId job.version job.uses)
          (staleDependents modsA m).1 (staleDependents modsA m).2 : Run _) = .ok mods' ∧ _
      rw [hsd]
      have hsubD : dependents modsA m ⊆ dependents mods m := by
        intro y hy
        rw [mem_dependents] at hy ⊢
        exact dependents_other (h2.acyclic m) hdeps hy
      have hcard := Finset.card_le_card hsubD
      have hlenB : modsB.length = modsA.length := by
        have hB : ∀ x : Nat, modsB[x]? = none ↔ modsA[x]? = none := by
          intro x
          rw [htk.get x]
          simp
        have h5 := hB modsA.length
        have h6 := hB modsB.length
        simp only [List.getElem?_eq_none_iff] at h5 h6
        have h7 := h5.2 (le_refl _)
        have h8 := h6.1 (le_refl _)
        omega
      have hInvB : Inv sources (fun _ => True) modsB := by
        refine Inv.strip (h2.mono (fun _ _ => trivial)) (fun x => x ∈ jobs.map Job.id) hlenB htk.get ?_
        intro x e he hx
        obtain ⟨j, hj, rfl⟩ := List.mem_map.1 hx
        obtain ⟨e', h1, h2, h3⟩ := htk.jobs j hj
        rw [he] at h1; cases h1
        exact h2
      have loop : ∀ (rest : List (Job U)) (modsC : List (Entry T U)), (∀ j ∈ rest, j ∈ jobs) →
          modsC.length = modsA.length → Inv sources (fun _ => True) modsC →
          (∀ x : Nat, ¬ Relation.TransGen (DepR modsA) x m → (modsC[x]?).map Entry.deps = (modsA[x]?).map Entry.deps) →
          ∃ mods', (List.foldlM (fun mods job => compile emit sources fuel mods (some job.id) job.sourceId job.version job.uses)
            modsC rest : Run _) = .ok mods' ∧
            ∀ x : Nat, ¬ Relation.TransGen (DepR modsA) x m → (mods'[x]?).map Entry.deps = (modsA[x]?).map Entry.deps := by
        intro rest
        induction rest with
        | nil => intro modsC _ _ _ hx; exact ⟨modsC, rfl, hx⟩
        | cons j rest ihr =>
          intro modsC hsub hl hi hx
          obtain ⟨ej, g1, g2, g3⟩ := htk.jobs j (hsub j (by simp))
          have hjD : Relation.TransGen (DepR modsA) j.id m := by
            have : j.id ∈ jobs.map Job.id := List.mem_map.2 ⟨j, hsub j (by simp), rfl⟩
            obtain ⟨e, w1, w2, -⟩ := (hw j.id).2 this
            exact .single ⟨e, w1, w2⟩
          have hjlt : j.id < modsC.length := by rw [hl]; exact (List.getElem?_eq_some_iff.1 g1).1
          have hjs : j.sourceId < sources.length := h2.srcs j.id ej _ g1 g3
          have hdep : ∀ y, Relation.TransGen (DepR modsC) y j.id → Relation.TransGen (DepR modsA) y m := by
            have one : ∀ a b, DepR modsC a b → Relation.TransGen (DepR modsA) b m → Relation.TransGen (DepR modsA) a m := by
              intro a b hab hbm
              by_contra hna
              apply hna
              refine .head ?_ hbm
              obtain ⟨e, w1, w2⟩ := hab
              have := hx a hna
              rw [w1] at this
              cases hm : modsA[a]? with
              | none => simp [hm] at this
              | some e' =>
                simp only [hm, Option.map_some, Option.some.injEq] at this
                exact ⟨e', hm, this ▸ w2⟩
            intro y hy
            induction hy using Relation.TransGen.head_induction_on with
            | single h1 => exact one _ _ h1 hjD
            | head h1 _ ih => exact one _ _ h1 ih
          have hlt : (dependents modsC j.id).card < (dependents modsA m).card := by
            apply Finset.card_lt_card
            rw [Finset.ssubset_iff_of_subset (by
              intro y hy
              rw [mem_dependents] at hy ⊢
              exact hdep y hy)]
            refine ⟨j.id, mem_dependents.2 hjD, ?_⟩
            rw [mem_dependents]
            exact hi.acyclic j.id
          obtain ⟨modsD, k1, k2⟩ := ih hi (target := some j.id) (by intro id hid; cases hid; exact hjlt) hjs j.version j.uses
            (by simp only [Option.getD_some]; omega)
          obtain ⟨-, k3⟩ := compile_spec hemit fuel hi (target := some j.id) (by intro id hid; cases hid; exact hjlt) hjs j.version j.uses
          obtain ⟨k4, k5⟩ := k3 modsD k1
          simp only [Option.getD_some] at k2 k4 k5
          rw [List.foldlM_cons, k1]
          refine ihr modsD (fun j' hj' => hsub j' (by simp [hj'])) (by rw [k5.len]; omega) (k4.mono (fun _ _ => trivial)) ?_
          intro x hxn
          rw [k2 x (by rintro rfl; exact hxn hjD) (fun hc => hxn (hdep x hc))]
          exact hx x hxn
      obtain ⟨mods', l1, l2⟩ := loop jobs modsB (fun _ h => h) hlenB hInvB (by
        intro x _
        rw [htk.get x]
        cases modsA[x]? with
        | none => rfl
        | some e =>
          simp only [Option.map_some]
          split <;> simp [Session.strip])
      refine ⟨mods', l1, ?_⟩
      intro x hx hxn
      rw [l2 x (fun hc => hxn (dependents_other (h2.acyclic m) hdeps hc))]
      exact hdeps x hx

theorem foldlM_mono {α β : Type} {f g : β → α → Run β} (h : ∀ b a b', f b a = .ok b' → g b a = .ok b') :
    ∀ (l : List α) (b b' : β), l.foldlM f b = .ok b' → l.foldlM g b = .ok b' := by
  intro l
  induction l with
  | nil => intro b b' hb; exact hb
  | cons a l ih =>
    intro b b' hb
    rw [List.foldlM_cons] at hb ⊢
    cases hf : f b a with
    | error e => rw [hf] at hb; cases hb
    | ok b1 =>
      rw [hf] at hb
      rw [h b a b1 hf]
      exact ih b1 b' hb

/-- The recursion budget of the model does not change the result. -/
theorem compile_fuel [Inhabited U] {emit : T → U → List (Option (Rev T U)) → Nat → Option (List Nat)} {sources : List T} :
    ∀ (fuel : Nat) (mods mods' : List (Entry T U)) (target : Option Nat) (sourceId version : Nat) (uses : U),
    compile emit sources fuel mods target sourceId version uses = .ok mods' → ∀ k,
    compile emit sources (fuel + k) mods target sourceId version uses = .ok mods' := by
  intro fuel
  induction fuel with
  | zero => intro mods mods' target sourceId version uses h; simp [compile] at h
  | succ fuel ih =>
    intro mods mods' target sourceId version uses h k
    rw [show fuel + 1 + k = (fuel + k) + 1 by omega]
    unfold compile at h ⊢
    cases hc : compileOne emit sources mods target sourceId version uses with
    | error e => rw [hc] at h; cases h
    | ok r =>
      obtain ⟨m, modsA, b⟩ := r
      rw [hc] at h
      cases b with
      | false => exact h
      | true =>
        exact foldlM_mono (fun b a b' hb => ih b b' (some a.id) a.sourceId a.version a.uses hb k) _ _ _ h

end Ferlium.Session
