import Verif.Proofs.LicmPlan

/-!
# Moving calls out of loops: the function after the move
-/

namespace Ferlium.Licm

theorem Keep.congr {α : Type} {rm rm' : Nat → Prop} {i : Nat} {l l' : List α} (h : Keep rm i l l')
    (he : ∀ j, i ≤ j → (rm j ↔ rm' j)) : Keep rm' i l l' := by
  induction h with
  | nil => exact .nil
  | skip hr _ ih => exact .skip ((he _ (Nat.le_refl _)).mp hr) (ih fun j hj => he j (by omega))
  | keep hr _ ih => exact .keep ((he _ (Nat.le_refl _)).not.mp hr) (ih fun j hj => he j (by omega))

theorem keep_from {α : Type} {rm : Nat → Prop} : ∀ {l : List α} {i : Nat}, (∀ j, i ≤ j → ¬ rm j) → Keep rm i l l
  | [], _, _ => .nil
  | _ :: _, i, h => .keep (h i (Nat.le_refl _)) (keep_from fun j hj => h j (by omega))

theorem keep_erase {α : Type} : ∀ (l : List α) (i j : Nat), Keep (· = i + j) i l (l.eraseIdx j)
  | [], i, j => by simpa using Keep.nil
  | a :: l, i, 0 => .skip (by omega) (keep_from fun j hj => by omega)
  | a :: l, i, j + 1 => .keep (by omega) ((keep_erase l (i + 1) j).congr fun x _ => by omega)

theorem keep_two {α : Type} : ∀ (l : List α) (i c a : Nat), c ≠ a →
    Keep (fun x => x = i + c ∨ x = i + a) i l ((l.eraseIdx c).eraseIdx (a - (if a > c then 1 else 0)))
  | [], i, c, a, _ => by simpa using Keep.nil
  | x :: l, i, 0, 0, h => absurd rfl h
  | x :: l, i, 0, a + 1, h => by
    refine .skip (.inl rfl) ?_
    simp only [Nat.zero_lt_succ, gt_iff_lt, if_true, Nat.add_sub_cancel, List.eraseIdx_cons_zero]
    exact (keep_erase l (i + 1) a).congr fun y hy => by omega
  | x :: l, i, c + 1, 0, h => by
    refine .skip (.inr rfl) ?_
    simp only [Nat.not_lt_zero, gt_iff_lt, if_false, Nat.sub_zero, List.eraseIdx_cons_succ, List.eraseIdx_cons_zero]
    exact (keep_erase l (i + 1) c).congr fun y hy => by omega
  | x :: l, i, c + 1, a + 1, h => by
    have e : a + 1 - (if a + 1 > c + 1 then 1 else 0) = (a - if a > c then 1 else 0) + 1 := by
      by_cases hac : a > c
      · rw [if_pos (by omega), if_pos hac]; omega
      · rw [if_neg (by omega), if_neg hac]; omega
    rw [e, List.eraseIdx_cons_succ, List.eraseIdx_cons_succ]
    exact .keep (by omega) ((keep_two l (i + 1) c a (by omega)).congr fun y hy => by omega)

theorem modify_get (F : Fn) (b : Nat) (f : List Op → List Op) (c : Nat) : (F.modify b f)[c]? =
    if c = b then (F[c]?).map (fun blk => { blk with ops := f blk.ops }) else F[c]? := by
  unfold Fn.modify
  rw [List.getElem?_modify]
  by_cases h : b = c
  · subst h; simp
  · rw [if_neg (fun e => h e.symm)]
    simp [h]

theorem insertIdx_split {α : Type} (a : α) : ∀ (l : List α) (k : Nat), k ≤ l.length →
    l.insertIdx k a = l.take k ++ a :: l.drop k
  | l, 0, _ => by simp
  | x :: l, k + 1, h => by
    simp only [List.length_cons, Nat.add_le_add_iff_right] at h
    simp [insertIdx_split a l k h]
  | [], k + 1, h => by simp at h

theorem insertIdx_two {α : Type} (a c : α) (l : List α) (k : Nat) (h : k ≤ l.length) :
    (l.insertIdx k a).insertIdx (k + 1) c = l.take k ++ a :: c :: l.drop k := by
  have hlen : (l.take k).length = k := by simp [h]
  have hi := insertIdx_split a l k h
  rw [insertIdx_split c _ (k + 1) (by rw [hi]; simp; omega), hi]
  have h1 : (l.take k ++ a :: l.drop k).take (k + 1) = l.take k ++ [a] := by
    rw [show k + 1 = (l.take k).length + 1 by rw [hlen], List.take_length_add_append]; simp
  have h2 : (l.take k ++ a :: l.drop k).drop (k + 1) = l.drop k := by
    rw [show k + 1 = (l.take k).length + 1 by rw [hlen], List.drop_length_add_append]; simp
  rw [h1, h2]; simp

open Classical in
/-- The function after the move is as planned, and the move is possible. -/
theorem apply_plan {F : Fn} {ρ : Reg → Option Root} (p : Plan F ρ) {h : Hoist} (hP : p.P = h.preheader)
    (hk : p.k = h.insertion) (hcall : h.call = (p.cb, p.ci)) (hmv : p.moved → h.alloca = some (p.ab, p.ai))
    (hnm : ¬ p.moved → h.alloca = none) : ∃ F', applyHoist F h = some F' ∧ p.Result F' := by
  have hcP : p.cb ≠ p.P := fun e => p.LP (e ▸ p.Lcall)
  have hget : (F[h.call.1]?).bind (·.ops[h.call.2]?) = some p.op := by
    rw [hcall]; simp [p.hcblk, p.hop]
  have hF1 : ∀ c, (F.modify h.call.1 (·.eraseIdx h.call.2))[c]? =
      if c = p.cb then (F[c]?).map (fun blk => { blk with ops := blk.ops.eraseIdx p.ci }) else F[c]? := by
    intro c; rw [modify_get, hcall]
  unfold applyHoist
  rw [hget]
  simp only
  by_cases hm : p.moved
  · obtain ⟨hL, ⟨ablk, hablk, haop⟩, hown, haops⟩ := p.hmoved hm
    have haP : p.ab ≠ p.P := fun e => p.LP (e ▸ hL)
    have hne : ¬ (p.ab = p.cb ∧ p.ai = p.ci) := by
      rintro ⟨e1, e2⟩
      have ha : At F p.ab p.ai p.aop := .ofOps hablk haop
      have hc : At F p.cb p.ci p.op := .ofOps p.hcblk p.hop
      rw [e1, e2] at ha
      have := ha.same hc
      obtain ⟨ty, hty⟩ := p.alloca _ _ _ ha hown
      rw [this, p.kind] at hty
      simp at hty
    rw [hmv hm]
    simp only
    have hidx : ((F.modify h.call.1 (·.eraseIdx h.call.2))[p.ab]?).bind
        (·.ops[p.ai - (if p.ab = h.call.1 ∧ p.ai > h.call.2 then 1 else 0)]?) = some p.aop := by
      rw [hF1, hcall]
      by_cases e : p.ab = p.cb
      · rw [if_pos e]
        have hne' : p.ai ≠ p.ci := fun e' => hne ⟨e, e'⟩
        rw [hablk]
        simp only [Option.map_some, Option.bind_some, e, true_and]
        by_cases hgt : p.ai > p.ci
        · rw [if_pos hgt, List.getElem?_eraseIdx, if_neg (by omega), show p.ai - 1 + 1 = p.ai by omega]
          exact haop
        · rw [if_neg hgt, List.getElem?_eraseIdx, if_pos (by omega)]
          exact haop
      · rw [if_neg e, if_neg (fun h => e h.1)]
        simp [hablk, haop]
    rw [hidx]
    refine ⟨_, rfl, ?_⟩
    intro b blk hb
    rw [modify_get, modify_get, hF1, hcall, ← hP, ← hk]
    simp only
    by_cases hbP : b = p.P
    · subst hbP
      have hpre : blk = p.pre := by
        have := p.hpre; rw [hb] at this; exact Option.some.inj this
      refine ⟨_, by
        rw [if_pos rfl, if_neg (fun e => haP e.symm), if_neg (fun e => hcP e.symm), hb]
        rfl, fun h => absurd h p.LP, fun _ h => absurd rfl h, ?_⟩
      intro _
      simp only [Plan.ins, hm, if_true]
      rw [insertIdx_two _ _ _ _ (hpre ▸ p.hk)]
      simp
    · rw [if_neg hbP]
      by_cases hba : b = p.ab
      · rw [if_pos hba]
        by_cases hbc : b = p.cb
        · rw [if_pos hbc, hb]
          refine ⟨_, rfl, ?_, fun hnL => absurd (hba ▸ hL) hnL, fun e => absurd e hbP⟩
          intro _
          have e : p.ab = p.cb := hba.symm.trans hbc
          simp only [e, true_and]
          refine (keep_two blk.ops 0 p.ci p.ai (fun e' => hne ⟨e, e'.symm⟩)).congr ?_
          intro j _
          simp only [Plan.rm, hbc, e, hm, true_and, Nat.zero_add]
        · rw [if_neg hbc, hb]
          refine ⟨_, rfl, ?_, fun hnL => absurd (hba ▸ hL) hnL, fun e => absurd e hbP⟩
          intro _
          have e : ¬ p.ab = p.cb := fun e => hbc (hba.trans e)
          simp only [e, false_and, if_false, Nat.sub_zero]
          refine (keep_erase blk.ops 0 p.ai).congr ?_
          intro j _
          simp only [Plan.rm, hba, e, hm, true_and, Nat.zero_add, false_and, false_or]
      · rw [if_neg hba]
        by_cases hbc : b = p.cb
        · rw [if_pos hbc, hb]
          refine ⟨_, rfl, ?_, fun hnL => absurd (hbc ▸ p.Lcall) hnL, fun e => absurd e hbP⟩
          intro _
          refine (keep_erase blk.ops 0 p.ci).congr ?_
          intro j _
          simp only [Plan.rm, hbc ▸ hba, hbc, true_and, Nat.zero_add, false_and, and_false, or_false]
        · rw [if_neg hbc, hb]
          refine ⟨_, rfl, ?_, fun _ _ => rfl, fun e => absurd e hbP⟩
          intro _
          apply keep_all
          rintro i (⟨h', _⟩ | ⟨_, h', _⟩)
          · exact hbc h'
          · exact hba h'
  · rw [hnm hm]
    refine ⟨_, rfl, ?_⟩
    intro b blk hb
    rw [modify_get, hF1, ← hP, ← hk]
    by_cases hbP : b = p.P
    · subst hbP
      have hpre : blk = p.pre := by
        have := p.hpre; rw [hb] at this; exact Option.some.inj this
      refine ⟨_, by
        rw [if_pos rfl, if_neg (fun e => hcP e.symm), hb]
        rfl, fun h => absurd h p.LP, fun _ h => absurd rfl h, ?_⟩
      intro _
      simp only [Plan.ins, hm, if_false]
      rw [insertIdx_split _ _ _ (hpre ▸ p.hk)]
      simp
    · rw [if_neg hbP]
      by_cases hbc : b = p.cb
      · rw [if_pos hbc, hb]
        refine ⟨_, rfl, ?_, fun hnL => absurd (hbc ▸ p.Lcall) hnL, fun e => absurd e hbP⟩
        intro _
        refine (keep_erase blk.ops 0 p.ci).congr ?_
        intro j _
        simp only [Plan.rm, hbc, hm, true_and, Nat.zero_add, false_and, or_false]
      · rw [if_neg hbc, hb]
        refine ⟨_, rfl, ?_, fun _ _ => rfl, fun e => absurd e hbP⟩
        intro _
        apply keep_all
        rintro i (⟨h', _⟩ | ⟨h', _⟩)
        · exact hbc h'
        · exact hm h'

/-- A move that is found has a plan. -/
theorem findHoist_plan {F : Fn} (wf : Wf F) {ρ : Reg → Option Root} (hρ : ∀ r q, ρ r = some q ↔ RootOf F r q)
    {dom : Nat → Nat → Bool} (hdom : ∀ d n, dom d n = true → ¬ Avoids F (· = d) n) {reachable : Nat → Bool}
    {trivial willReturn : Nat → Bool} {headers : List Nat} {h : Hoist}
    (hf : findHoist F dom reachable trivial willReturn headers = some h) :
    ∃ p : Plan F ρ, p.P = h.preheader ∧ p.k = h.insertion ∧ h.call = (p.cb, p.ci) ∧
      (p.moved → h.alloca = some (p.ab, p.ai)) ∧ (¬ p.moved → h.alloca = none) ∧
      eligibleCall trivial willReturn p.op ≠ none := by
  unfold findHoist at hf
  split at hf
  · simp at hf
  · rename_i m hm
    obtain ⟨hd, _, hhd⟩ := List.exists_of_findSome?_eq_some hf
    split at hhd
    · rename_i nl hnl
      unfold findInLoop at hhd
      split at hhd
      · simp at hhd
      · rename_i hord
        have horder : ∀ b ∈ nl.blocks, nl.preheader < b := by
          intro b hb
          simp only [List.any_eq_true, decide_eq_true_eq, not_exists, not_and, not_le] at hord
          exact hord b hb
        obtain ⟨b, hb, hbb⟩ := List.exists_of_findSome?_eq_some hhd
        have hbl : b ∈ nl.blocks := by
          have := (List.mem_filter.mp hb).2
          simpa using this
        split at hbb
        · simp at hbb
        · rename_i blk hblk
          obtain ⟨⟨⟨b', i⟩, op⟩, hs, hc⟩ := List.exists_of_findSome?_eq_some hbb
          obtain ⟨rfl, _, hop⟩ := mem_opsFrom.mp hs
          obtain ⟨p, _, h2⟩ := candidate_plan wf hρ hdom hm hnl horder hbl hblk (by simpa using hop) hc
          exact ⟨p, h2⟩
    · simp at hhd

end Ferlium.Licm
