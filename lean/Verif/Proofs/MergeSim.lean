import Verif.Proofs.CseStep

/-! Removing operations whose result another register holds already: a simulation for an arbitrary invariant. -/
namespace Ferlium.Cse

open Ferlium.Mir Ferlium.Dominance Ferlium.Edit
open Ferlium.Negation (Site opAt opAt_some)

variable {V σ : Type} {W : World V σ} {f : Body} {s s1 s' : St V σ} {w : σ} {st : State}

/-- The execution of the body passes through the given point in the given state. -/
def OnRun (W : World V σ) (f : Body) (w : σ) (p : Site) (s : St V σ) : Prop :=
  ∃ blk n, f[p.block]? = some blk ∧ p.index ≤ blk.ops.length ∧
    run W f n (start f w) = .at (blk.ops.drop p.index) blk.term s

/-- The register is used at a point. -/
def UsedAt (f : Body) (p : Site) (r : Nat) : Prop :=
  (∃ op, opAt f p = some op ∧ Value.register r ∈ op.operands) ∨
  ∃ blk, f[p.block]? = some blk ∧ p.index = blk.ops.length ∧ Value.register r ∈ blk.term.operands

/-- A terminator leads from a state to a block in another state. -/
def Jumps (W : World V σ) (t : Term) (s : St V σ) (b : Nat) (s1 : St V σ) : Prop :=
  match t with
  | .goto b' => b = b' ∧ s1 = s
  | .condBr _ x y => (b = x ∨ b = y) ∧ s1 = s
  | .invoke op n e => (execOp W (fun _ => false) op s = .ok s1 ∧ b = n) ∨ (execOp W (fun _ => false) op s = .error s1 ∧ b = e)
  | .yield v r => b = r ∧ ∃ x w', W.yield x (exposeOne W s v).world = some w' ∧ s1 = { exposeOne W s v with world := w' }
  | _ => False

/-- What the invariant has to satisfy. -/
structure Stable (W : World V σ) (f : Body) (w : σ) (st : State) (I : Site → St V σ → Prop) : Prop where
  start : I ⟨0, 0⟩ ⟨fun _ => none, w⟩
  pinned : ∀ p s, I p s → ∀ r c, UsedAt f p r → st.merged.lookup r = some c →
    st.merged.lookup c = none ∧ ∃ x, s.env r = some (.value x false) ∧ s.env c = some (.value x false)
  kept : ∀ b i op s s1, opAt f ⟨b, i⟩ = some op → (b, i) ∉ st.removed → OnRun W f w ⟨b, i⟩ s → I ⟨b, i⟩ s →
    execOp W op.direct op s = .ok s1 → I ⟨b, i + 1⟩ s1
  gone : ∀ b i op s, opAt f ⟨b, i⟩ = some op → (b, i) ∈ st.removed → OnRun W f w ⟨b, i⟩ s → I ⟨b, i⟩ s →
    execOp W op.direct op s ≠ .stuck → ∃ s1, execOp W op.direct op s = .ok s1 ∧ I ⟨b, i + 1⟩ s1 ∧ s1.world = s.world ∧
      ∀ r, st.merged.lookup r = none → s1.env r = s.env r
  jumps : ∀ (b : Nat) blk s b' s1, f[b]? = some blk → OnRun W f w ⟨b, blk.ops.length⟩ s → I ⟨b, blk.ops.length⟩ s →
    b' ∈ blk.term.successors → Jumps W blk.term s b' s1 → I ⟨b', 0⟩ s1

variable {I : Site → St V σ → Prop}

/-- The two executions are at corresponding points. -/
inductive RelI (f : Body) (st : State) (I : Site → St V σ → Prop) : Config V σ → Config V σ → Prop
  | done x : RelI f st I (.done x) (.done x)
  | here {b i : Nat} {blk : Block} {s s' : St V σ} : f[b]? = some blk → i ≤ blk.ops.length → I ⟨b, i⟩ s →
      Match st.merged (fun _ => False) s s' →
      RelI f st I (.at (blk.ops.drop i) blk.term s)
        (.at ((keepOps st.removed b i (blk.ops.drop i)).map (renameOp st.merged)) (renameTerm st.merged blk.term) s')

theorem relI_enter {b : Nat} (h : I ⟨b, 0⟩ s) (hm : Match st.merged (fun _ => False) s s') :
    RelI f st I (enter f b s) (enter (rewrite st f) b s') := by
  unfold enter
  rw [rewrite_get]
  cases hb : f[b]? with
  | none => exact .done _
  | some blk => exact .here (i := 0) hb (Nat.zero_le _) h hm

theorem pin (hS : Stable W f w st I) {p : Site} (h : I p s) (hm : Match st.merged (fun _ => False) s s') {vs : List Value}
    (hu : ∀ r, Value.register r ∈ vs → UsedAt f p r) : Match st.merged (fun r => Value.register r ∈ vs) s s' := by
  refine ⟨hm.world, hm.env, ?_⟩
  intro r c hr hl
  obtain ⟨hc, x, h1, h2⟩ := hS.pinned p s h r c (hu r hr) hl
  exact ⟨x, h1, by rw [← hm.env c hc]; exact h2⟩

theorem relI_term (hS : Stable W f w st I) {b : Nat} {blk : Block} (hb : f[b]? = some blk) (h : I ⟨b, blk.ops.length⟩ s)
    (hon : OnRun W f w ⟨b, blk.ops.length⟩ s) (hm : Match st.merged (fun _ => False) s s') :
    RelI f st I (stepTerm W f blk.term s) (stepTerm W (rewrite st f) (renameTerm st.merged blk.term) s') := by
  have hpin := pin hS h hm (vs := blk.term.operands) (fun r hr => Or.inr ⟨blk, hb, rfl, hr⟩)
  have hgo : ∀ b' s1 s1', b' ∈ blk.term.successors → Jumps W blk.term s b' s1 → Match st.merged (fun _ => False) s1 s1' →
      RelI f st I (enter f b' s1) (enter (rewrite st f) b' s1') := by
    intro b' s1 s1' hb' hj hm1
    exact relI_enter (hS.jumps b blk s b' s1 hb hon h hb' hj) hm1
  cases hterm : blk.term with
  | goto b' =>
    rw [hterm] at hgo
    exact hgo b' s s' (by simp [Term.successors]) ⟨rfl, rfl⟩ hm
  | condBr c x y =>
    rw [hterm] at hpin hgo
    simp only [renameTerm, stepTerm]
    have : valueOf W s c = valueOf W s' (canon st.merged c) := by
      unfold valueOf
      rw [match_argOf hpin fun r e => by rw [e]; simp [Term.operands]]
    rw [this]
    split
    · exact hgo x s s' (by simp [Term.successors]) ⟨Or.inl rfl, rfl⟩ hm
    · exact hgo y s s' (by simp [Term.successors]) ⟨Or.inr rfl, rfl⟩ hm
    · exact .done _
  | invoke op n e =>
    rw [hterm] at hpin hgo
    have hst := match_execOp (W := W) (direct := fun _ => false) hpin op (fun r hr => hr)
    simp only [renameTerm, stepTerm]
    simp only [Jumps] at hgo
    generalize execOp W (fun _ => false) op s = e1 at hst hgo ⊢
    generalize execOp W (fun _ => false) (renameOp st.merged op) s' = e2 at hst ⊢
    cases e1 <;> cases e2 <;> simp only [StepMatch] at hst
    · exact hgo n _ _ (by simp [Term.successors]) (Or.inl ⟨rfl, rfl⟩) hst
    · exact hgo e _ _ (by simp [Term.successors]) (Or.inr ⟨rfl, rfl⟩) hst
    · subst hst; exact .done _
    · exact .done _
  | yield v r =>
    rw [hterm] at hpin hgo
    have hvv : ∀ r, v = .register r → Value.register r ∈ (Term.yield v r).operands := fun r e => by rw [e]; simp [Term.operands]
    have h1 := match_exposeOne (W := W) hpin (v := v) hvv
    simp only [renameTerm, stepTerm]
    have : valueOf W (exposeOne W s v) v = valueOf W (exposeOne W s' (canon st.merged v)) (canon st.merged v) := by
      unfold valueOf
      rw [match_argOf h1 hvv]
    rw [← this, ← h1.world]
    split
    · rename_i x _
      split
      · rename_i w' hw'
        exact hgo r _ _ (by simp [Term.successors]) ⟨rfl, x, w', hw', rfl⟩ (h1.setWorld w').weak
      · exact .done _
    · exact .done _
  | ret =>
    simp only [renameTerm, stepTerm]
    rw [hm.world]; exact .done _
  | propagateError =>
    simp only [renameTerm, stepTerm]
    rw [hm.world]; exact .done _
  | cleanupFailure =>
    simp only [renameTerm, stepTerm]
    rw [hm.world]; exact .done _

theorem relI_kept (hS : Stable W f w st I) {b i : Nat} {blk : Block} (hb : f[b]? = some blk) (hi : i < blk.ops.length)
    (hk : (b, i) ∉ st.removed) (h : I ⟨b, i⟩ s) (hon : OnRun W f w ⟨b, i⟩ s) (hm : Match st.merged (fun _ => False) s s') :
    RelI f st I (step W f (.at (blk.ops.drop i) blk.term s))
      (step W (rewrite st f) (.at ((keepOps st.removed b i (blk.ops.drop i)).map (renameOp st.merged)) (renameTerm st.merged blk.term) s')) := by
  have hget : blk.ops[i]? = some blk.ops[i] := List.getElem?_eq_getElem hi
  have hop : opAt f ⟨b, i⟩ = some blk.ops[i] := opAt_some.2 ⟨blk, hb, hget⟩
  have hpin := pin hS h hm (vs := blk.ops[i].operands) (fun r hr => Or.inl ⟨_, hop, hr⟩)
  have hst := match_execOp (W := W) (direct := blk.ops[i].direct) hpin blk.ops[i] (fun r hr => hr)
  rw [List.drop_eq_getElem_cons hi, keepOps, if_neg hk, List.map_cons]
  simp only [step]
  rw [rename_direct]
  generalize hx : execOp W blk.ops[i].direct blk.ops[i] s = e1 at hst ⊢
  generalize execOp W blk.ops[i].direct (renameOp st.merged blk.ops[i]) s' = e2 at hst ⊢
  cases e1 <;> cases e2 <;> simp only [StepMatch] at hst
  · exact .here hb hi (hS.kept b i _ _ _ hop hk hon h hx) hst
  · simp only []
    rw [hst.world]; exact .done _
  · subst hst; exact .done _
  · exact .done _

theorem relI_gone (hS : Stable W f w st I) {b i : Nat} {blk : Block} (hb : f[b]? = some blk) (hi : i < blk.ops.length)
    (hk : (b, i) ∈ st.removed) (h : I ⟨b, i⟩ s) (hon : OnRun W f w ⟨b, i⟩ s) (hm : Match st.merged (fun _ => False) s s')
    (hsafe : Safe W f w) :
    ∃ s1, step W f (.at (blk.ops.drop i) blk.term s) = .at (blk.ops.drop (i + 1)) blk.term s1 ∧ I ⟨b, i + 1⟩ s1 ∧
      Match st.merged (fun _ => False) s1 s' ∧
      keepOps st.removed b i (blk.ops.drop i) = keepOps st.removed b (i + 1) (blk.ops.drop (i + 1)) := by
  have hget : blk.ops[i]? = some blk.ops[i] := List.getElem?_eq_getElem hi
  have hop : opAt f ⟨b, i⟩ = some blk.ops[i] := opAt_some.2 ⟨blk, hb, hget⟩
  have hns : execOp W blk.ops[i].direct blk.ops[i] s ≠ .stuck := by
    intro hx
    obtain ⟨blk', n, h1, _, h3⟩ := hon
    rw [hb] at h1
    cases h1
    apply hsafe
    refine ⟨n + 1, ?_⟩
    rw [run_succ', h3]
    simp only []
    rw [List.drop_eq_getElem_cons hi]
    simp only [step, hx]
  obtain ⟨s1, e1, e2, e3, e4⟩ := hS.gone b i _ s hop hk hon h hns
  refine ⟨s1, ?_, e2, ⟨by rw [e3]; exact hm.world, fun r hr => by rw [e4 r hr]; exact hm.env r hr, fun _ _ h => h.elim⟩, ?_⟩
  · rw [List.drop_eq_getElem_cons hi]
    simp only [step, e1]
  · rw [List.drop_eq_getElem_cons hi, keepOps, if_pos hk]

theorem merge_same (hS : Stable W f w st I) (hsafe : Safe W f w) : SameBehaviour W f (rewrite st f) w := by
  let R : Config V σ → Config V σ → Prop := fun c c' => RelI f st I c c' ∧ ∃ n, run W f n (start f w) = c
  have hnext : ∀ c, (∃ n, run W f n (start f w) = c) → ∃ n, run W f n (start f w) = step W f c := by
    rintro c ⟨n, rfl⟩
    exact ⟨n + 1, run_succ' _ _⟩
  have hon : ∀ {b i : Nat} {blk : Block} {s : St V σ}, f[b]? = some blk → i ≤ blk.ops.length →
      (∃ n, run W f n (start f w) = .at (blk.ops.drop i) blk.term s) → OnRun W f w ⟨b, i⟩ s := by
    rintro b i blk s h1 h2 ⟨n, hn⟩
    exact ⟨blk, n, h1, h2, hn⟩
  have hend : ∀ {b : Nat} {blk : Block} {s s' : St V σ}, f[b]? = some blk → I ⟨b, blk.ops.length⟩ s →
      OnRun W f w ⟨b, blk.ops.length⟩ s → Match st.merged (fun _ => False) s s' →
      RelI f st I (step W f (.at (blk.ops.drop blk.ops.length) blk.term s))
        (step W (rewrite st f) (.at ((keepOps st.removed b blk.ops.length (blk.ops.drop blk.ops.length)).map
          (renameOp st.merged)) (renameTerm st.merged blk.term) s')) := by
    intro b blk s s' hb h ho hm
    rw [List.drop_length]
    exact relI_term hS hb h ho hm
  refine sim_both R ?_ ?_ ?_ ?_ ?_ ⟨relI_enter hS.start ⟨rfl, fun _ _ => rfl, fun _ _ h => h.elim⟩, 0, rfl⟩
  · rintro c c' ⟨h, _⟩
    cases h with
    | done x => rfl
    | here _ _ _ hm => exact congrArg some hm.world
  · rintro x c' ⟨h, _⟩
    cases h; rfl
  · rintro x c ⟨h, _⟩
    cases h; rfl
  · rintro c c' ⟨h, hr⟩
    cases h with
    | done x => exact ⟨0, .done x, hr⟩
    | @here b i blk s s' hb hi h hm =>
      have ho := hon hb hi hr
      rcases Nat.lt_or_eq_of_le hi with hi' | rfl
      · by_cases hk : (b, i) ∈ st.removed
        · obtain ⟨s1, e1, e2, e3, e4⟩ := relI_gone hS hb hi' hk h ho hm hsafe
          refine ⟨0, ?_, hnext _ hr⟩
          rw [e1]
          simp only [run]
          rw [e4]
          exact .here hb hi' e2 e3
        · exact ⟨1, relI_kept hS hb hi' hk h ho hm, hnext _ hr⟩
      · exact ⟨1, hend hb h ho hm, hnext _ hr⟩
  · rintro c c' ⟨h, hr⟩
    cases h with
    | done x => exact ⟨0, .done x, hr⟩
    | @here b i blk s s' hb hi h hm =>
      generalize hn : blk.ops.length - i = n
      induction n generalizing i s with
      | zero =>
        have : i = blk.ops.length := by omega
        subst this
        exact ⟨1, hend hb h (hon hb hi hr) hm, hnext _ hr⟩
      | succ n ih =>
        have hi' : i < blk.ops.length := by omega
        have ho := hon hb hi hr
        by_cases hk : (b, i) ∈ st.removed
        · obtain ⟨s1, e1, e2, e3, e4⟩ := relI_gone hS hb hi' hk h ho hm hsafe
          have hr' := hnext _ hr
          rw [e1] at hr'
          obtain ⟨k, hk1, hk2⟩ := ih (i := i + 1) (s := s1) hi' e2 e3 hr' (by omega)
          refine ⟨k + 1, ?_⟩
          rw [e4]
          simp only [run]
          rw [e1]
          exact ⟨hk1, hk2⟩
        · exact ⟨1, relI_kept hS hb hi' hk h ho hm, hnext _ hr⟩

end Ferlium.Cse
