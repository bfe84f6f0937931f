import Verif.Proofs.CseSim

/-! Merging repeated address computations preserves behaviour: the simulation. -/
namespace Ferlium.Cse

open Ferlium.Mir Ferlium.Dominance Ferlium.Edit
open Ferlium.Negation (Site opAt opAt_some opAt_mem Before before_iff before_op before_jump before_irrefl not_before_start site_unique)

variable {V σ : Type} {W : World V σ} {f : Body} {s s1 s' : St V σ} {w : σ} {st : State} {F : Kind → List V → V}

theorem rewrite_get (b : Nat) : (rewrite st f)[b]? = (f[b]?).map (rewriteBlock st b) := by
  unfold rewrite
  rw [List.getElem?_map, List.getElem?_zipIdx]
  cases f[b]? <;> simp

/-- The states agree, and the original one satisfies the invariant. -/
structure Here (W : World V σ) (f : Body) (F : Kind → List V → V) (st : State) (p : Site) (s s' : St V σ) : Prop where
  reach : Reachable f p.block
  inv : Inv W f F st.merged p s
  agree : Match st.merged (fun _ => False) s s'

/-- The two executions are at corresponding points. -/
inductive Rel (W : World V σ) (f : Body) (F : Kind → List V → V) (st : State) : Config V σ → Config V σ → Prop
  | done x : Rel W f F st (.done x) (.done x)
  | here {b i : Nat} {blk : Block} {s s' : St V σ} : f[b]? = some blk → i ≤ blk.ops.length → Here W f F st ⟨b, i⟩ s s' →
      Rel W f F st (.at (blk.ops.drop i) blk.term s)
        (.at ((keepOps st.removed b i (blk.ops.drop i)).map (renameOp st.merged)) (renameTerm st.merged blk.term) s')

theorem rel_enter {b : Nat} (h : Here W f F st ⟨b, 0⟩ s s') : Rel W f F st (enter f b s) (enter (rewrite st f) b s') := by
  unfold enter
  rw [rewrite_get]
  cases hb : f[b]? with
  | none => exact .done _
  | some blk => exact .here (i := 0) hb (Nat.zero_le _) h

/-- The merged operands of the operation or terminator at a point hold the value of their representatives. -/
theorem here_pinned (hG : Glob f (fun q => Reachable f q.block) st.merged st.removed) {p : Site} (h : Here W f F st p s s')
    {vs : List Value} (hd : ∀ r, Value.register r ∈ vs → ∀ d od, opAt f d = some od → od.result = some r → Before f d p) :
    Match st.merged (fun r => Value.register r ∈ vs) s s' := by
  refine ⟨h.agree.world, h.agree.env, ?_⟩
  intro r c hr hl
  have hm := lookup_mem hl
  obtain ⟨q, q', o, o', _, k2, k3, k4, k5, k6, k7, k8, k9, k10⟩ := hG.pairs r c hm
  have hb := hd r hr q o k2 k3
  obtain ⟨vs, j1, _⟩ := h.inv.place q o r k2 hb k8 k3
  refine ⟨_, j1, ?_⟩
  have hcn : st.merged.lookup c = none := by
    cases hl' : st.merged.lookup c with
    | none => rfl
    | some c' => exact absurd (lookup_mem hl') (hG.final r c hm c')
  rw [← h.agree.env c hcn, ← h.inv.pairs r c hm q o k2 k3 hb, j1]

theorem rel_term (hv : Valid f) (hd : DefsFirst f) (hG : Glob f (fun q => Reachable f q.block) st.merged st.removed)
    {b : Nat} {blk : Block} (hb : f[b]? = some blk) (h : Here W f F st ⟨b, blk.ops.length⟩ s s') :
    Rel W f F st (stepTerm W f blk.term s) (stepTerm W (rewrite st f) (renameTerm st.merged blk.term) s') := by
  have hmem := List.mem_of_getElem? hb
  have hpin := here_pinned hG h (vs := blk.term.operands) (fun r hr d od h1 h2 => hd.terms b blk r hb hr d od h1 h2)
  have hgo : ∀ b' ∈ blk.term.successors, ∀ s1 s1', Match st.merged (fun _ => False) s1 s1' →
      (∀ q x, s.env q = some (.value x false) → s1.env q = some (.value x false)) →
      (∀ o x, Still s o x → Still s1 o x) → Rel W f F st (enter f b' s1) (enter (rewrite st f) b' s1') := by
    intro b' hb' s1 s1' hm h1 h2
    refine rel_enter ⟨?_, ?_, hm⟩
    · exact h.reach.tail (⟨blk, hb, hb'⟩)
    · exact inv_keep hv.single hG hd (p := ⟨b, blk.ops.length⟩) h.reach h.inv (fun q op k1 k2 => before_jump k1 hb hb' k2)
        (fun _ _ r x _ _ _ k => h1 r x k) (fun o x _ k => h2 o x k)
  have hsame : ∀ b' ∈ blk.term.successors, Rel W f F st (enter f b' s) (enter (rewrite st f) b' s') := fun b' hb' =>
    hgo b' hb' s s' h.agree (fun _ _ h => h) (fun _ _ h => h)
  cases hterm : blk.term with
  | goto b' => exact hsame b' (by rw [hterm]; simp [Term.successors])
  | condBr c x y =>
    rw [hterm] at hpin
    simp only [renameTerm, stepTerm]
    have : valueOf W s c = valueOf W s' (canon st.merged c) := by
      unfold valueOf
      rw [match_argOf hpin fun r e => by rw [e]; simp [Term.operands]]
    rw [this]
    split
    · exact hsame x (by rw [hterm]; simp [Term.successors])
    · exact hsame y (by rw [hterm]; simp [Term.successors])
    · exact .done _
  | invoke op n e =>
    have hres := hv.single.2 blk hmem op n e hterm
    rw [hterm] at hpin
    have hst := match_execOp (W := W) (direct := fun _ => false) hpin op (fun r hr => hr)
    have hnext : ∀ b' ∈ blk.term.successors, ∀ s1 s1', (execOp W (fun _ => false) op s).Cont s1 →
        Match st.merged (fun _ => False) s1 s1' → Rel W f F st (enter f b' s1) (enter (rewrite st f) b' s1') := by
      intro b' hb' s1 s1' h1 hm
      exact hgo b' hb' s1 s1' hm (fun q x hx => execOp_value hx (by rw [hres]; simp) h1)
        (fun o x hx => still_execOp hx (by rw [hres]; simp) h1)
    simp only [renameTerm, stepTerm]
    generalize hx : execOp W (fun _ => false) op s = e1 at hst hnext ⊢
    generalize execOp W (fun _ => false) (renameOp st.merged op) s' = e2 at hst ⊢
    cases e1 <;> cases e2 <;> simp only [StepMatch] at hst
    · exact hnext n (by rw [hterm]; simp [Term.successors]) _ _ rfl hst
    · exact hnext e (by rw [hterm]; simp [Term.successors]) _ _ rfl hst
    · subst hst; exact .done _
    · exact .done _
  | yield v r =>
    rw [hterm] at hpin
    have hvv : ∀ r, v = .register r → Value.register r ∈ (Term.yield v r).operands := fun r e => by rw [e]; simp [Term.operands]
    have h1 := match_exposeOne (W := W) hpin (v := v) hvv
    simp only [renameTerm, stepTerm]
    have : valueOf W (exposeOne W s v) v = valueOf W (exposeOne W s' (canon st.merged v)) (canon st.merged v) := by
      unfold valueOf
      rw [match_argOf h1 hvv]
    rw [← this, ← h1.world]
    split
    · split
      · rename_i w' _
        exact hgo r (by rw [hterm]; simp [Term.successors]) _ _ (h1.setWorld w').weak (fun q x hx => exposeOne_value hx)
          (fun o x hx => still_exposeOne hx)
      · exact .done _
    · exact .done _
  | ret =>
    simp only [renameTerm, stepTerm]
    rw [h.agree.world]; exact .done _
  | propagateError =>
    simp only [renameTerm, stepTerm]
    rw [h.agree.world]; exact .done _
  | cleanupFailure =>
    simp only [renameTerm, stepTerm]
    rw [h.agree.world]; exact .done _

/-- The step for an operation which is kept. -/
theorem rel_kept (hs : SingleAssignment f) (hd : DefsFirst f) (hG : Glob f (fun q => Reachable f q.block) st.merged st.removed)
    (hF : PlaceFn W f F) {b i : Nat} {blk : Block} (hb : f[b]? = some blk) (hi : i < blk.ops.length)
    (hk : (b, i) ∉ st.removed) (h : Here W f F st ⟨b, i⟩ s s') :
    Rel W f F st (step W f (.at (blk.ops.drop i) blk.term s))
      (step W (rewrite st f) (.at ((keepOps st.removed b i (blk.ops.drop i)).map (renameOp st.merged)) (renameTerm st.merged blk.term) s')) := by
  have hget : blk.ops[i]? = some blk.ops[i] := List.getElem?_eq_getElem hi
  have hop : opAt f ⟨b, i⟩ = some blk.ops[i] := opAt_some.2 ⟨blk, hb, hget⟩
  have hpin := here_pinned hG h (vs := blk.ops[i].operands) (fun r hr d od h1 h2 => hd.ops _ _ r hop hr d od h1 h2)
  have hst := match_execOp (W := W) (direct := blk.ops[i].direct) hpin blk.ops[i] (fun r hr => hr)
  rw [List.drop_eq_getElem_cons hi, keepOps, if_neg hk, List.map_cons]
  simp only [step]
  rw [rename_direct]
  generalize hx : execOp W blk.ops[i].direct blk.ops[i] s = e1 at hst ⊢
  generalize execOp W blk.ops[i].direct (renameOp st.merged blk.ops[i]) s' = e2 at hst ⊢
  cases e1 <;> cases e2 <;> simp only [StepMatch] at hst
  · exact .here hb hi ⟨h.reach, inv_op hs hd hG hF h.reach hop h.inv hx, hst⟩
  · simp only []
    rw [hst.world]; exact .done _
  · subst hst; exact .done _
  · exact .done _

/-- The step for an operation which is removed. -/
theorem rel_removed (hs : SingleAssignment f) (hd : DefsFirst f) (hG : Glob f (fun q => Reachable f q.block) st.merged st.removed)
    (hF : PlaceFn W f F) {b i : Nat} {blk : Block} (hb : f[b]? = some blk) (hi : i < blk.ops.length)
    (hk : (b, i) ∈ st.removed) (h : Here W f F st ⟨b, i⟩ s s') (hsafe : SafeFrom W f (.at (blk.ops.drop i) blk.term s)) :
    ∃ s1, step W f (.at (blk.ops.drop i) blk.term s) = .at (blk.ops.drop (i + 1)) blk.term s1 ∧
      Here W f F st ⟨b, i + 1⟩ s1 s' ∧
      keepOps st.removed b i (blk.ops.drop i) = keepOps st.removed b (i + 1) (blk.ops.drop (i + 1)) := by
  have hget : blk.ops[i]? = some blk.ops[i] := List.getElem?_eq_getElem hi
  have hop : opAt f ⟨b, i⟩ = some blk.ops[i] := opAt_some.2 ⟨blk, hb, hget⟩
  obtain ⟨op, x, c, h1, h2, h3⟩ := (hG.removed b i).1 hk
  rw [hop] at h1
  cases h1
  have hns : execOp W blk.ops[i].direct blk.ops[i] s ≠ .stuck := by
    intro hx
    apply hsafe 1
    rw [List.drop_eq_getElem_cons hi]
    simp only [run, step, hx]
  have hx := dup_exec hd hG hF (p := ⟨b, i⟩) h.reach h.inv hop h2 h3 hs hns
  refine ⟨s.set x (s.env c), ?_, ⟨h.reach, inv_op hs hd hG hF h.reach hop h.inv hx, ?_⟩, ?_⟩
  · rw [List.drop_eq_getElem_cons hi]
    simp only [step, hx]
  · refine ⟨h.agree.world, ?_, fun _ _ h => h.elim⟩
    intro r hr
    have : r ≠ x := by
      rintro rfl
      obtain ⟨c', hc'⟩ : ∃ c', st.merged.lookup r = some c' := by
        cases hl : st.merged.lookup r with
        | some c' => exact ⟨c', rfl⟩
        | none => exact absurd h3 (fun hm => by
            have := List.lookup_eq_none_iff.1 hl (r, c) hm
            simp at this)
      rw [hr] at hc'; cases hc'
    simp only [St.set, Function.update_of_ne this]
    exact h.agree.env r hr
  · rw [List.drop_eq_getElem_cons hi, keepOps, if_pos hk]

theorem rewrite_same (hv : Valid f) (hd : DefsFirst f)
    (hG : Glob f (fun q => Reachable f q.block) st.merged st.removed) (hF : PlaceFn W f F) (hsafe : Safe W f w) :
    SameBehaviour W f (rewrite st f) w := by
  let R : Config V σ → Config V σ → Prop := fun c c' => Rel W f F st c c' ∧ SafeFrom W f c
  have hend : ∀ {b : Nat} {blk : Block} {s s' : St V σ}, f[b]? = some blk → Here W f F st ⟨b, blk.ops.length⟩ s s' →
      Rel W f F st (step W f (.at (blk.ops.drop blk.ops.length) blk.term s))
        (step W (rewrite st f) (.at ((keepOps st.removed b blk.ops.length (blk.ops.drop blk.ops.length)).map
          (renameOp st.merged)) (renameTerm st.merged blk.term) s')) := by
    intro b blk s s' hb h
    rw [List.drop_length]
    exact rel_term hv hd hG hb h
  refine sim_both R ?_ ?_ ?_ ?_ ?_ ⟨rel_enter ⟨.refl, ?_, ⟨rfl, fun _ _ => rfl, fun _ _ h => h.elim⟩⟩, safeFrom_start hsafe⟩
  · rintro c c' ⟨h, _⟩
    cases h with
    | done x => rfl
    | here _ _ h => exact congrArg some h.agree.world
  · rintro x c' ⟨h, _⟩
    cases h; rfl
  · rintro x c ⟨h, _⟩
    cases h; rfl
  · rintro c c' ⟨h, hsf⟩
    cases h with
    | done x => exact ⟨0, .done x, hsf⟩
    | @here b i blk s s' hb hi h =>
      rcases Nat.lt_or_eq_of_le hi with hi' | rfl
      · by_cases hk : (b, i) ∈ st.removed
        · obtain ⟨s1, e1, e2, e3⟩ := rel_removed hv.single hd hG hF hb hi' hk h hsf
          refine ⟨0, ?_, hsf.step⟩
          rw [e1]
          simp only [run]
          rw [e3]
          exact .here hb hi' e2
        · exact ⟨1, rel_kept hv.single hd hG hF hb hi' hk h, hsf.step⟩
      · exact ⟨1, hend hb h, hsf.step⟩
  · rintro c c' ⟨h, hsf⟩
    cases h with
    | done x => exact ⟨0, .done x, hsf⟩
    | @here b i blk s s' hb hi h =>
      generalize hn : blk.ops.length - i = n
      induction n generalizing i s with
      | zero =>
        have : i = blk.ops.length := by omega
        subst this
        exact ⟨1, hend hb h, hsf.step⟩
      | succ n ih =>
        have hi' : i < blk.ops.length := by omega
        by_cases hk : (b, i) ∈ st.removed
        · obtain ⟨s1, e1, e2, e3⟩ := rel_removed hv.single hd hG hF hb hi' hk h hsf
          have hsf' := hsf.step
          rw [e1] at hsf'
          obtain ⟨k, hk1, hk2⟩ := ih (i := i + 1) (s := s1) hi' e2 hsf' (by omega)
          refine ⟨k + 1, ?_⟩
          rw [e3]
          simp only [run]
          rw [e1]
          exact ⟨hk1, hk2⟩
        · exact ⟨1, rel_kept hv.single hd hG hF hb hi' hk h, hsf.step⟩
  · exact ⟨fun _ _ _ _ h => absurd h not_before_start, fun _ _ _ _ _ _ _ h => absurd h not_before_start⟩

end Ferlium.Cse
