import Verif.Proofs.DceStorage

/-!
# Helper lemmas on the removal of unused computations: unread derived places
-/

namespace Ferlium.Dce

variable {V W : Type}

/-! ## Sums over all operations -/

theorem sumIdx_add {α : Type} (f g : Nat → α → Nat) (l : List α) (i : Nat) :
    sumIdx (fun j a => f j a + g j a) i l = sumIdx f i l + sumIdx g i l := by
  induction l generalizing i with
  | nil => rfl
  | cons a l ih => simp only [sumIdx, ih]; omega

theorem total_add (f g : Site → Op → Nat) (t : Term → Nat) (F : Fn) :
    total (fun s op => f s op + g s op) t F = total f t F + total g (fun _ => 0) F := by
  simp only [total]
  rw [← sumIdx_add]
  apply sumIdx_congr
  intro j blk _
  rw [sumIdx_add (fun i op => f (0 + j, i) op) (fun i op => g (0 + j, i) op)]
  omega

theorem sum_opsAt (f : Site → Op → Nat) (b : Nat) (l : List Op) (i : Nat) :
    sumIdx (fun j op => f (b, j) op) i l = ((opsAt b i l).map fun p => f p.1 p.2).sum := by
  induction l generalizing i with
  | nil => rfl
  | cons a l ih => simp only [sumIdx, opsAt, List.map_cons, List.sum_cons, ih]

theorem total_allOps (f : Site → Op → Nat) (F : Fn) :
    total f (fun _ => 0) F = (F.allOps.map fun p => f p.1 p.2).sum := by
  simp only [total, Fn.allOps, Nat.add_zero]
  have : ∀ (l : List Block) b,
      sumIdx (fun b blk => sumIdx (fun i op => f (b, i) op) 0 blk.ops) b l =
        ((allOpsFrom b l).map fun p => f p.1 p.2).sum := by
    intro l
    induction l with
    | nil => intro b; rfl
    | cons a l ih =>
      intro b
      simp only [sumIdx, allOpsFrom, List.map_append, List.sum_append]
      rw [ih, sum_opsAt]
  exact this F.blocks 0

theorem uses_split (F : Fn) (dead : Site → Bool) (r : Reg) :
    kept F dead r + (F.allOps.map fun p => if dead p.1 then occ r p.2.operands else 0).sum
      = uses F r := by
  rw [← total_allOps (fun s op => if dead s then occ r op.operands else 0), kept, ← total_add]
  simp only [uses]
  apply total_congr
  intro s op _
  split <;> omega

/-! ## Retiring the operands of removed operations -/

theorem retireGone_spec (l : List Operand) (u : Reg → Option Nat) (h : ∀ x, u x ≠ some 0) :
    (∀ x, retireGone l u x ≠ some 0) ∧ (∀ x, u x = none → retireGone l u x = none) ∧
    ∀ x, (retireGone l u x).getD 0 = (u x).getD 0 - occ x l := by
  induction l generalizing u with
  | nil => exact ⟨h, fun _ h => h, fun x => rfl⟩
  | cons o l ih =>
    cases o with
    | reg y =>
      simp only [retireGone]
      cases hy : u y with
      | none =>
        obtain ⟨h1, h2, h3⟩ := ih u h
        refine ⟨h1, h2, fun x => ?_⟩
        rw [h3 x]
        simp only [occ]
        split
        · rename_i e; subst e; simp [hy]
        · omega
      | some n =>
        simp only
        have hset : ∀ x, set u y (if n - 1 = 0 then none else some (n - 1)) x ≠ some 0 := by
          intro x
          simp only [set]
          split
          · split
            · simp
            · simpa using by assumption
          · exact h x
        obtain ⟨h1, h2, h3⟩ := ih _ hset
        refine ⟨h1, fun x hx => ?_, fun x => ?_⟩
        · apply h2
          simp only [set]
          split
          · rename_i e; subst e; rw [hy] at hx; cases hx
          · exact hx
        · rw [h3 x]
          simp only [set, occ]
          by_cases e : x = y
          · subst e
            simp only [if_true, hy, Option.getD_some]
            split
            · simp only [Option.getD_none]; omega
            · simp only [Option.getD_some]; omega
          · have e' : ¬ y = x := fun h => e h.symm
            simp only [if_neg e, if_neg e']
            omega
    | const _ => simpa only [retireGone, occ] using ih u h
    | func _ => simpa only [retireGone, occ] using ih u h
    | other _ => simpa only [retireGone, occ] using ih u h

theorem retireAllGone_spec (dead : Site → Bool) (l : List (Site × Op)) (u : Reg → Option Nat)
    (h : ∀ x, u x ≠ some 0) :
    (∀ x, retireAllGone dead l u x ≠ some 0) ∧
    (∀ x, u x = none → retireAllGone dead l u x = none) ∧
    ∀ x, (retireAllGone dead l u x).getD 0 =
      (u x).getD 0 - (l.map fun p => if dead p.1 then occ x p.2.operands else 0).sum := by
  induction l generalizing u with
  | nil => exact ⟨h, fun _ h => h, fun x => by simp [retireAllGone]⟩
  | cons p l ih =>
    obtain ⟨s, op⟩ := p
    simp only [retireAllGone, List.map_cons, List.sum_cons]
    cases hd : dead s with
    | true =>
      simp only [if_true]
      obtain ⟨g1, g2, g3⟩ := retireGone_spec op.operands u h
      obtain ⟨h1, h2, h3⟩ := ih _ g1
      refine ⟨h1, fun x hx => h2 x (g2 x hx), fun x => ?_⟩
      rw [h3 x, g3 x]
      omega
    | false =>
      simp only [Bool.false_eq_true, if_false, Nat.zero_add]
      exact ih u h

/-- The counts that the worklist starts from. -/
theorem derived_start (F : Fn) (gone : Site → Bool) :
    (∀ x, retireAllGone gone F.allOps (derivedUses F) x ≠ some 0) ∧
    (∀ x, ((derived F).get x).isSome = false →
      retireAllGone gone F.allOps (derivedUses F) x = none) ∧
    ∀ x, ((derived F).get x).isSome = true →
      (retireAllGone gone F.allOps (derivedUses F) x).getD 0 = kept F gone x := by
  have h0 : ∀ x, derivedUses F x ≠ some 0 := by
    intro x
    simp only [derivedUses]
    split
    · rename_i h; simpa using h.2
    · simp
  obtain ⟨h1, h2, h3⟩ := retireAllGone_spec gone F.allOps (derivedUses F) h0
  refine ⟨h1, fun x hx => h2 x (by simp [derivedUses, hx]), fun x hx => ?_⟩
  rw [h3 x]
  have := uses_split F gone x
  have hu : (derivedUses F x).getD 0 = uses F x := by
    simp only [derivedUses, hx, true_and]
    split
    · rfl
    · simp only [Option.getD_none]; omega
  rw [hu]
  omega

/-! ## The worklist -/

theorem retireDerived_spec (l : List Operand) (u : Reg → Option Nat) (p : List Reg)
    (h : ∀ x, u x = none ∨ occ x l ≤ (u x).getD 0) :
    ∃ u' p', retireDerived l u p = some (u', p') ∧
      (∀ x, u x = none → u' x = none) ∧
      (∀ x, u x ≠ none → (u' x).getD 0 + occ x l = (u x).getD 0) ∧
      p'.length ≤ p.length + l.length ∧ (∀ x ∈ p, x ∈ p') ∧
      (∀ x ∈ p', x ∈ p ∨ (u x ≠ none ∧ (u' x).getD 0 = 0)) ∧
      (∀ x, (u' x).getD 0 = 0 → (u x).getD 0 = 0 ∨ x ∈ p') := by
  induction l generalizing u p with
  | nil => exact ⟨u, p, rfl, fun _ h => h, fun x _ => by simp [occ], by simp, fun _ h => h,
      fun x h => .inl h, fun x h => .inl h⟩
  | cons o l ih =>
    have skip : (∀ x, u x = none ∨ occ x l ≤ (u x).getD 0) →
        (∀ x, u x ≠ none → occ x (o :: l) = occ x l) →
        retireDerived (o :: l) u p = retireDerived l u p →
        ∃ u' p', retireDerived (o :: l) u p = some (u', p') ∧
          (∀ x, u x = none → u' x = none) ∧
          (∀ x, u x ≠ none → (u' x).getD 0 + occ x (o :: l) = (u x).getD 0) ∧
          p'.length ≤ p.length + (o :: l).length ∧ (∀ x ∈ p, x ∈ p') ∧
          (∀ x ∈ p', x ∈ p ∨ (u x ≠ none ∧ (u' x).getD 0 = 0)) ∧
          (∀ x, (u' x).getD 0 = 0 → (u x).getD 0 = 0 ∨ x ∈ p') := by
      intro g1 g2 g3
      obtain ⟨u', p', h1, h2, h3, h4, h5⟩ := ih u p g1
      refine ⟨u', p', by rw [g3]; exact h1, h2, fun x hx => ?_, ?_, h5⟩
      · rw [g2 x hx]; exact h3 x hx
      · simp only [List.length_cons]; omega
    cases o with
    | reg y =>
      cases hy : u y with
      | none =>
        refine skip (fun x => ?_) (fun x hx => ?_) (by simp only [retireDerived, hy])
        · rcases h x with h | h
          · exact .inl h
          · simp only [occ] at h; exact .inr (by omega)
        · have : ¬ y = x := fun e => hx (e ▸ hy)
          simp [occ, this]
      | some m =>
        have hle := h y
        simp only [hy, occ, if_true, Option.getD_some] at hle
        obtain ⟨n, rfl⟩ : ∃ n, m = n + 1 := ⟨m - 1, by simp at hle; omega⟩
        simp only [retireDerived, hy]
        have hset : ∀ x, set u y (some n) x = none ∨ occ x l ≤ (set u y (some n) x).getD 0 := by
          intro x
          simp only [set]
          by_cases e : x = y
          · subst e; simp only [if_true, Option.getD_some]; simp at hle; exact .inr (by omega)
          · simp only [e, if_false]
            rcases h x with h | h
            · exact .inl h
            · simp only [occ] at h; exact .inr (by omega)
        obtain ⟨u', p', h1, h2, h3, h4, h5, h6, h7⟩ :=
          ih (set u y (some n)) (if n = 0 then y :: p else p) hset
        refine ⟨u', p', h1, ?_, ?_, ?_, ?_, ?_, ?_⟩
        · intro x hx
          apply h2
          have : x ≠ y := fun e => by rw [e, hy] at hx; cases hx
          simp only [set, if_neg this, hx]
        · intro x hx
          by_cases e : x = y
          · subst e
            have := h3 x (by simp [set])
            simp only [set, if_true, Option.getD_some] at this
            simp only [occ, if_true, hy, Option.getD_some]
            omega
          · have := h3 x (by simpa [set, e] using hx)
            have e' : ¬ y = x := fun h => e h.symm
            simp only [set, if_neg e] at this
            simp only [occ, if_neg e']
            omega
        · split at h4 <;> simp at h4 ⊢ <;> omega
        · intro x hx
          apply h5
          split
          · exact List.mem_cons_of_mem _ hx
          · exact hx
        · intro x hx
          rcases h6 x hx with h8 | ⟨h8, h9⟩
          · split at h8
            · rename_i hn
              rcases List.mem_cons.mp h8 with rfl | h8
              · refine .inr ⟨by simp [hy], ?_⟩
                have := h3 x (by simp [set])
                simp only [set, if_true, Option.getD_some] at this
                omega
              · exact .inl h8
            · exact .inl h8
          · refine .inr ⟨?_, h9⟩
            by_cases e : x = y
            · subst e; simp [hy]
            · simpa [set, e] using h8
        · intro x hx
          rcases h7 x hx with h8 | h8
          · by_cases e : x = y
            · subst e
              simp only [set, if_true, Option.getD_some] at h8
              right
              apply h5
              simp [h8]
            · simp only [set, if_neg e] at h8
              exact .inl h8
          · exact .inr h8
    | const _ => exact skip (by simpa [occ] using h) (by simp [occ]) rfl
    | func _ => exact skip (by simpa [occ] using h) (by simp [occ]) rfl
    | other _ => exact skip (by simpa [occ] using h) (by simp [occ]) rfl

theorem derived_get {F : Fn} {r : Reg} {s : Site} (h : (derived F).get r = some s) :
    ∃ op, F.op? s = some op ∧ op.result = some r ∧
      (op.kind = .dictEntry ∨ op.kind = .subfield) := by
  have := Cands.get_mem h
  simp only [derived, List.mem_reverse, List.mem_filterMap] at this
  obtain ⟨⟨s', op⟩, h1, h2⟩ := this
  refine ⟨op, ?_⟩
  simp only [derivedOf] at h2
  split at h2 <;> rename_i hk <;> try simp only [Option.map_eq_some_iff, Prod.mk.injEq] at h2
  · obtain ⟨r', h3, rfl, rfl⟩ := h2; exact ⟨mem_allOps.mp h1, h3, .inl hk⟩
  · obtain ⟨r', h3, rfl, rfl⟩ := h2; exact ⟨mem_allOps.mp h1, h3, .inr hk⟩
  · cases h2

theorem derived_inj {F : Fn} {r r' : Reg} {s : Site} (h : (derived F).get r = some s)
    (h' : (derived F).get r' = some s) : r = r' := by
  obtain ⟨op, h1, h2, _⟩ := derived_get h
  obtain ⟨op', h1', h2', _⟩ := derived_get h'
  rw [h1] at h1'; cases h1'
  rw [h2] at h2'; exact Option.some.inj h2'

/-- The sites of the operations removed so far. -/
def allGone (F : Fn) (gone : List Site) (seen : List Reg) (s : Site) : Bool :=
  s ∈ gone ∨ s ∈ seen.filterMap (derived F).get

/-- What holds between the turns of the loop. -/
structure DInv (F : Fn) (gone : List Site) (u : Reg → Option Nat) (p seen : List Reg) : Prop where
  other : ∀ x, ((derived F).get x).isSome = false → u x = none
  count : ∀ x, ((derived F).get x).isSome = true →
    (u x).getD 0 = kept F (allGone F gone seen) x
  pend : ∀ x ∈ p, ((derived F).get x).isSome = true ∧ (u x).getD 0 = 0
  found : ∀ x, ((derived F).get x).isSome = true → (u x).getD 0 = 0 → x ∈ p ∨ x ∈ seen
  seen : ∀ x ∈ seen, ((derived F).get x).isSome = true ∧ (u x).getD 0 = 0

theorem derivedLoop_spec {F : Fn} {gone : List Site}
    (hg : ∀ r s, (derived F).get r = some s → s ∉ gone) (fuel : Nat)
    (u : Reg → Option Nat) (p seen : List Reg) (h : DInv F gone u p seen)
    (hf : p.length + keptSize F (allGone F gone seen) < fuel) :
    ∃ results, derivedLoop F fuel u p seen = some results ∧
      ∀ x, x ∈ results ↔ ((derived F).get x).isSome = true ∧
        kept F (allGone F gone results) x = 0 := by
  induction fuel generalizing u p seen with
  | zero => omega
  | succ n ih =>
    cases p with
    | nil =>
      refine ⟨seen, rfl, fun x => ⟨fun hx => ?_, fun ⟨h1, h2⟩ => ?_⟩⟩
      · obtain ⟨h1, h2⟩ := h.seen x hx
        exact ⟨h1, by rw [← h.count x h1]; exact h2⟩
      · rcases h.found x h1 (by rw [h.count x h1]; exact h2) with h3 | h3
        · cases h3
        · exact h3
    | cons r p =>
      simp only [derivedLoop]
      simp only [List.length_cons] at hf
      split
      · rename_i hm
        apply ih u p seen ⟨h.other, h.count, fun x hx => h.pend x (List.mem_cons_of_mem _ hx),
          ?_, h.seen⟩ (by omega)
        intro x h1 h2
        rcases h.found x h1 h2 with h3 | h3
        · rcases List.mem_cons.mp h3 with rfl | h3
          · exact .inr hm
          · exact .inl h3
        · exact .inr h3
      · rename_i hm
        obtain ⟨hr1, hr2⟩ := h.pend r List.mem_cons_self
        obtain ⟨s, hs⟩ := Option.isSome_iff_exists.mp hr1
        obtain ⟨op, hop, hres, hkind⟩ := derived_get hs
        simp only [hs, hop]
        have hnew : allGone F gone seen s = false := by
          simp only [allGone, decide_eq_false_iff_not, not_or, List.mem_filterMap]
          refine ⟨hg r s hs, ?_⟩
          rintro ⟨x, hx, hxs⟩
          exact hm (derived_inj hxs hs ▸ hx)
        have hnext : allGone F gone (r :: seen) s = true := by
          simp only [allGone, decide_eq_true_eq, List.mem_filterMap]
          exact .inr ⟨r, List.mem_cons_self, hs⟩
        have hsame : ∀ s', s' ≠ s → allGone F gone (r :: seen) s' = allGone F gone seen s' := by
          intro s' hne
          simp only [allGone, List.filterMap_cons, hs, List.mem_cons, hne, false_or]
        have hle : ∀ x, ((derived F).get x).isSome = true → occ x op.operands ≤ (u x).getD 0 := by
          intro x hx
          rw [h.count x hx]
          exact kept_ge hop hnew
        obtain ⟨u', p', h1, h2, h3, h4, h5, h6, h7⟩ := retireDerived_spec op.operands u p (by
          intro x
          cases hx : ((derived F).get x).isSome with
          | false => exact .inl (h.other x hx)
          | true => exact .inr (hle x hx))
        have h3' : ∀ x, ((derived F).get x).isSome = true →
            (u' x).getD 0 + occ x op.operands = (u x).getD 0 := by
          intro x hx
          cases hu : u x with
          | none =>
            have := hle x hx
            rw [hu, Option.getD_none] at this
            rw [h2 x hu, Option.getD_none]
            omega
          | some m => rw [← hu]; exact h3 x (by simp [hu])
        simp only [h1]
        apply ih u' p' (r :: seen)
        · refine ⟨fun x hx => h2 x (h.other x hx), ?_, ?_, ?_, ?_⟩
          · intro x hx
            have e1 := kept_add (r := x) hop hnew hnext hsame
            have e2 := h3' x hx
            rw [h.count x hx] at e2
            omega
          · intro x hx
            rcases h6 x hx with h8 | ⟨h8, h9⟩
            · obtain ⟨g1, g2⟩ := h.pend x (List.mem_cons_of_mem _ h8)
              have := h3' x g1
              exact ⟨g1, by omega⟩
            · refine ⟨?_, h9⟩
              cases hx : ((derived F).get x).isSome with
              | true => rfl
              | false => exact absurd (h.other x hx) h8
          · intro x hx1 hx2
            rcases h7 x hx2 with h8 | h8
            · rcases h.found x hx1 h8 with h9 | h9
              · rcases List.mem_cons.mp h9 with rfl | h9
                · exact .inr List.mem_cons_self
                · exact .inl (h5 x h9)
              · exact .inr (List.mem_cons_of_mem _ h9)
            · exact .inl h8
          · intro x hx
            rcases List.mem_cons.mp hx with rfl | hx
            · have := h3' x hr1
              exact ⟨hr1, by omega⟩
            · obtain ⟨g1, g2⟩ := h.seen x hx
              have := h3' x g1
              exact ⟨g1, by omega⟩
        · have := keptSize_add hop hnew hnext hsame
          omega

/-- `unread_derived_places` does not panic, and finds exactly the derived places without a use in
what is left. -/
theorem unreadDerived_spec {F : Fn} {gone : List Site}
    (hg : ∀ r s, (derived F).get r = some s → s ∉ gone) {order : List Reg}
    (ho : ∀ r, r ∈ order ↔ ((derived F).get r).isSome) :
    ∃ results, unreadDerived F (· ∈ gone) order = some results ∧
      ∀ x, x ∈ results ↔ ((derived F).get x).isSome = true ∧
        kept F (allGone F gone results) x = 0 := by
  obtain ⟨h1, h2, h3⟩ := derived_start F (· ∈ gone)
  have e : allGone F gone [] = fun s => decide (s ∈ gone) := by
    funext s; simp [allGone]
  apply derivedLoop_spec hg
  · refine ⟨h2, ?_, ?_, ?_, by simp⟩
    · intro x hx; rw [e]; exact h3 x hx
    · intro x hx
      simp only [List.mem_filter, Option.isNone_iff_eq_none] at hx
      exact ⟨(ho x).mp hx.1, by rw [hx.2]; rfl⟩
    · intro x hx hz
      left
      simp only [List.mem_filter, Option.isNone_iff_eq_none]
      refine ⟨(ho x).mpr hx, ?_⟩
      cases hu : retireAllGone (· ∈ gone) F.allOps (derivedUses F) x with
      | none => rfl
      | some m =>
        rw [hu, Option.getD_some] at hz
        exact absurd (hz ▸ hu) (h1 x)
  · have := List.length_filter_le
      (fun r => (retireAllGone (· ∈ gone) F.allOps (derivedUses F) r).isNone) order
    have hle : keptSize F (allGone F gone []) ≤ size F := by
      have := total_add (fun s op => if allGone F gone [] s then 0 else op.operands.length)
        (fun s op => if allGone F gone [] s then op.operands.length else 0) (fun _ => 0) F
      have e2 : total (fun s op => (if allGone F gone [] s then 0 else op.operands.length) +
          if allGone F gone [] s then op.operands.length else 0) (fun _ => 0) F = size F := by
        apply total_congr
        intro s op _
        split <;> omega
      simp only [keptSize]
      omega
    omega

/-- What the storage cleanup relies on: the operations that it removes return, leave the world
alone, and write to nothing but the storage that they are meant to initialise or end. -/
structure QuietStorage (sem : Sem V W) : Prop where
  store : ∀ n, Quiet sem .store n (fun i => i = 1)
  buildArray : ∀ n, Quiet sem .buildArray (n + 1) (fun i => i = n)
  clone : ∀ n, Quiet sem .clone n (fun i => i = 1)
  drop : ∀ n, Quiet sem .drop n (fun i => i = 0)
  dictEntry : ∀ n, Quiet sem .dictEntry n (fun _ => False)
  subfield : ∀ n, Quiet sem .subfield n (fun _ => False)

theorem derived_not_gone {F : Fn} {admit : Bool} {r : Reg} {s : Site}
    (h : (derived F).get r = some s) : s ∉ deadStorage F admit := by
  intro hm
  obtain ⟨op, h1, r', _, h2⟩ := deadStorage_mem hm
  obtain ⟨op', h3, _, h4⟩ := derived_get h
  rw [h1] at h3; cases h3
  rcases h2 with ⟨h2, _⟩ | ⟨pos, _, h2⟩
  · rw [h2] at h4; simp at h4
  · rcases h2 with h2 | h2 | h2 | h2 <;> · rw [h2.1] at h4; simp at h4

/-- Nobody needs the storage and the derived places that go. -/
theorem storage_harmless {sem : Sem V W} {F : Fn} (wf : WellFormed F) (admit : Bool)
    (hq : QuietStorage sem) {results : List Reg}
    (hres : ∀ x ∈ results, ((derived F).get x).isSome = true ∧
      kept F (allGone F (deadStorage F admit) results) x = 0) :
    Harmless sem F (allGone F (deadStorage F admit) results)
      (fun r => Gone F admit r ∨ r ∈ results) (Gone F admit) := by
  have hin : ∀ s, s ∈ deadStorage F admit →
      allGone F (deadStorage F admit) results s = true := by
    intro s hs; simp [allGone, hs]
  have hcases : ∀ s op, F.op? s = some op → allGone F (deadStorage F admit) results s = true →
      s ∈ deadStorage F admit ∨ ∃ r ∈ results, op.result = some r ∧
        (op.kind = .dictEntry ∨ op.kind = .subfield) := by
    intro s op hs hd
    simp only [allGone, decide_eq_true_eq, List.mem_filterMap] at hd
    rcases hd with hd | ⟨r, hr, hd⟩
    · exact .inl hd
    · obtain ⟨op', h1, h2, h3⟩ := derived_get hd
      rw [hs] at h1; cases h1
      exact .inr ⟨r, hr, h2, h3⟩
  refine ⟨fun r h => .inl h, ?_, ?_, ?_, ?_, ?_, ?_, ?_⟩
  · rintro r ⟨d, hrd, _⟩
    obtain ⟨op, h1, h2, h3⟩ := allocas_mem.mp hrd
    exact ⟨d, op, h1, h2, h3⟩
  · rintro s op hs hd x hx (hR | hR)
    · rw [hin s (gone_use hR hs hx)] at hd; cases hd
    · exact (not_reg_of_kept (hres x hR).2).1 s op hs hd hx
  · intro b blk hb
    refine ⟨?_, ?_⟩
    · rintro x hx (⟨d, hrd, hdead⟩ | hR)
      · have := (census_spec F admit x).2.2 b blk hb hx
        simp [AllocationUses.dead, this] at hdead
      · exact (not_reg_of_kept (hres x hR).2).2 b blk hb hx
    · rintro r hr (⟨d, hrd, _⟩ | hR)
      · obtain ⟨op, h1, h2, h3⟩ := allocas_mem.mp hrd
        exact wf.ssaTerm b blk r hb hr d op h1 h3
      · obtain ⟨s, hs⟩ := Option.isSome_iff_exists.mp (hres r hR).1
        obtain ⟨op, h1, h2, _⟩ := derived_get hs
        exact wf.ssaTerm b blk r hb hr s op h1 h2
  · rintro s op r hs hd hr (hR | hR)
    · exact ⟨(gone_def wf hR hs hr).2, hR⟩
    · exfalso
      obtain ⟨s', hs'⟩ := Option.isSome_iff_exists.mp (hres r hR).1
      obtain ⟨op', h1, h2, _⟩ := derived_get hs'
      have := wf.ssa s s' op op' r hs h1 hr h2
      subst this
      have : allGone F (deadStorage F admit) results s = true := by
        simp only [allGone, decide_eq_true_eq, List.mem_filterMap]
        exact .inr ⟨r, hR, hs'⟩
      rw [this] at hd
      cases hd
  · intro s op r hs hr hR
    exact (gone_def wf hR hs hr).2
  · intro s op r hs hd hr
    rcases hcases s op hs hd with h | ⟨r', h1, h2, h3⟩
    · obtain ⟨op', h1, r', hg, h2⟩ := deadStorage_mem h
      rw [hs] at h1; cases h1
      rcases h2 with ⟨h2, h3⟩ | ⟨pos, _, h2⟩
      · rw [hr] at h3; cases h3
        exact ⟨.inl hg, fun _ => hg⟩
      · have := wf.noResult s op hs (by
          rcases h2 with h2 | h2 | h2 | h2
          · exact .inl h2.1
          · exact .inr (.inr (.inr (.inl h2.1)))
          · exact .inr (.inl h2.1)
          · exact .inr (.inr (.inl h2.1)))
        rw [this] at hr; cases hr
    · rw [hr] at h2; cases h2
      refine ⟨.inr h1, fun hk => ?_⟩
      rw [hk] at h3; simp at h3
  · intro s op hs hd hk
    rcases hcases s op hs hd with h | ⟨r', h1, h2, h3⟩
    · obtain ⟨op', h1, r', hg, h2⟩ := deadStorage_mem h
      rw [hs] at h1; cases h1
      rcases h2 with ⟨h2, _⟩ | ⟨pos, hpos, h2⟩
      · exact absurd h2 hk
      · intro args w hlen
        have pick : ∀ e : Effect V W, (∀ (i : Nat) v, e.writes[i]? = some (some v) → i = pos) →
            ∀ (i : Nat) v, e.writes[i]? = some (some v) →
              ∃ x, op.operands[i]? = some (.reg x) ∧ Gone F admit x := by
          intro e he i v hv
          rw [he i v hv]
          exact ⟨r', hpos, hg⟩
        rcases h2 with ⟨h2, h3⟩ | ⟨h2, h3⟩ | ⟨h2, h3⟩ | ⟨h2, h3⟩ <;> rw [h2]
        · obtain ⟨e, e1, e2, e3⟩ := hq.store _ args w hlen
          exact ⟨e, e1, e2, pick e (fun i v hv => (e3 i v hv).trans h3.symm)⟩
        · obtain ⟨e, e1, e2, e3⟩ := hq.buildArray pos args w (by omega)
          exact ⟨e, e1, e2, pick e (fun i v hv => e3 i v hv)⟩
        · obtain ⟨e, e1, e2, e3⟩ := hq.clone _ args w hlen
          exact ⟨e, e1, e2, pick e (fun i v hv => (e3 i v hv).trans h3.symm)⟩
        · obtain ⟨e, e1, e2, e3⟩ := hq.drop _ args w hlen
          exact ⟨e, e1, e2, pick e (fun i v hv => (e3 i v hv).trans h3.symm)⟩
    · intro args w hlen
      rcases h3 with h3 | h3 <;> rw [h3]
      · obtain ⟨e, e1, e2, e3⟩ := hq.dictEntry _ args w hlen
        exact ⟨e, e1, e2, fun i v hv => (e3 i v hv).elim⟩
      · obtain ⟨e, e1, e2, e3⟩ := hq.subfield _ args w hlen
        exact ⟨e, e1, e2, fun i v hv => (e3 i v hv).elim⟩

end Ferlium.Dce
