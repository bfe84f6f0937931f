import Verif.Proofs.TailMerge
import Verif.Props.Negation

/-!
C35: merging blocks which do the same and skipping empty blocks preserves behaviour.
-/
namespace Ferlium.TailMerge

open Ferlium.Mir

/-- The rest of the pass once the replacements are known. -/
theorem finish_spec {f : Body} (hne : f ≠ []) (hr : InRange f) :
    ∃ g, (((foldForwarding f >>= foldTerminals) >>= Edit.removeUnreachable) >>= Edit.mergeBlocks) = some g ∧
      ∀ (V σ : Type) (W : World V σ) (w : σ), Safe W f w → SameBehaviour W f g w := by
  obtain ⟨g1, h1, s1⟩ := foldForwarding_spec hne hr
  have hne1 : g1 ≠ [] := by
    intro h; have := s1.len; rw [h] at this; exact hne (List.length_eq_zero_iff.1 this.symm)
  obtain ⟨g2, h2, s2⟩ := foldTerminals_spec hne1 s1.inRange
  have hne2 : g2 ≠ [] := by
    intro h; have := s2.len; rw [h] at this; exact hne1 (List.length_eq_zero_iff.1 this.symm)
  obtain ⟨g3, m, order, k1, k2, k3, k4⟩ := Edit.removeUnreachable_spec s2.inRange hne2
  obtain ⟨g4, h4, k5, _⟩ := Edit.mergeBlocks_spec k2.inRange (Edit.ordered_ne_nil k2)
  refine ⟨g4, ?_, ?_⟩
  · rw [h1]
    simp only [Option.bind_eq_bind, Option.bind_some]
    rw [h2]
    simp only [Option.bind_some]
    rw [k1]
    exact h4
  · intro V σ W w hs
    exact (((s1.trans s2).same V σ W w hs).trans (Edit.relabel_same k2.relabel w)).trans (k5 V σ W w)

/-- C35, without restriction: skipping empty blocks, and replacing jumps to an empty final block by its terminator,
preserves the executions of every body. -/
theorem C35_empty_blocks_skipped (f : Body) (hr : InRange f) (hne : f ≠ []) :
    ∃ g, foldForwarding f >>= foldTerminals = some g ∧
      ∀ (V σ : Type) (W : World V σ) (w : σ), Safe W f w → SameBehaviour W f g w := by
  obtain ⟨g1, h1, s1⟩ := foldForwarding_spec hne hr
  have hne1 : g1 ≠ [] := by
    intro h; have := s1.len; rw [h] at this; exact hne (List.length_eq_zero_iff.1 this.symm)
  obtain ⟨g2, h2, s2⟩ := foldTerminals_spec hne1 s1.inRange
  exact ⟨g2, by rw [h1]; exact h2, (s1.trans s2).same⟩

/-- A cycle of empty blocks is not skipped for ever. -/
example : foldForwarding [⟨[], .goto 1⟩, ⟨[], .goto 2⟩, ⟨[], .goto 1⟩] =
    some [⟨[], .goto 1⟩, ⟨[], .goto 2⟩, ⟨[], .goto 1⟩] := by decide

/-- C35: the pass finishes, and the body it returns, if any, has the same executions, provided that registers defined by
blocks which do the same are not used elsewhere. -/
theorem C35_tails_merged (hash : List Token → Nat) (f : Body) (hv : Valid f) (hne : f ≠ []) (hsep : Separate f) :
    ∃ r, simplifyTails hash f = some r ∧
      ∀ g, r = some g → ∀ (V σ : Type) (W : World V σ) (w : σ), Safe W f w → SameBehaviour W f g w := by
  unfold simplifyTails
  split
  · exact ⟨none, rfl, fun g h => (by cases h)⟩
  · obtain ⟨reachable, q1, -⟩ := Edit.reachLoop_spec hv.inRange hne _ _ [0] ∅ rfl rfl (by simp)
      (by intro b hb; rw [List.mem_singleton] at hb; subst hb; exact .refl) (by simp)
    obtain ⟨rep, q2, q3, q4⟩ := replacements_spec hash hv hsep reachable
    rw [q1]
    simp only [Option.bind_eq_bind, Option.bind_some]
    rw [q2]
    simp only [Option.bind_some]
    split
    · have s1 := redirect_spec hne hv.inRange q3 q4
      obtain ⟨g, k1, k2⟩ := finish_spec (f := f.map (redirectBlock rep)) (by simpa using hne) s1.inRange
      refine ⟨some g, ?_, ?_⟩
      · simp only [Option.bind_eq_bind] at k1
        rw [k1]; rfl
      · intro g' hg V σ W w hs
        cases hg
        exact (s1.same V σ W w hs).trans (k2 V σ W w ((s1.same V σ W w hs).safe hs))
    · exact ⟨none, rfl, fun g h => (by cases h)⟩

/-! ### Example -/

/-- Both branches read the same local and drop the value. -/
def exampleTails : Body :=
  [ { ops := [⟨some 0, .alloca 0, []⟩, ⟨none, .store, [.constant (.bool true), .register 0]⟩],
      term := .condBr (.constant (.bool true)) 1 2 },
    { ops := [⟨some 1, .load, [.register 0]⟩, ⟨none, .drop 0, [.register 1, .function 0]⟩], term := .goto 3 },
    { ops := [⟨some 2, .load, [.register 0]⟩, ⟨none, .drop 0, [.register 2, .function 0]⟩], term := .goto 3 },
    { ops := [], term := .ret } ]

example : replacements (fun _ => 0) exampleTails {0, 1, 2, 3} = some [(1, 2)] := by decide

example : worthwhile exampleTails {0, 1, 2, 3} [(1, 2)] = true := by decide

example : foldForwarding (exampleTails.map (redirectBlock [(1, 2)])) >>= foldTerminals = some
    [ { ops := [⟨some 0, .alloca 0, []⟩, ⟨none, .store, [.constant (.bool true), .register 0]⟩], term := .goto 2 },
      { ops := [⟨some 1, .load, [.register 0]⟩, ⟨none, .drop 0, [.register 1, .function 0]⟩], term := .ret },
      { ops := [⟨some 2, .load, [.register 0]⟩, ⟨none, .drop 0, [.register 2, .function 0]⟩], term := .ret },
      { ops := [], term := .ret } ] := by decide

example : ∃ w, Ends demo exampleTails [] (.returned w) := ⟨_, 20, by rfl⟩

example : Valid exampleTails ∧ exampleTails ≠ [] ∧ Separate exampleTails := by
  refine ⟨⟨Negation.inRange_of (by decide), ⟨by decide, ?_⟩, ?_⟩, by simp [exampleTails], ⟨?_, ?_, ?_⟩⟩
  · intro b hb
    simp only [exampleTails, List.mem_cons, List.not_mem_nil, or_false] at hb
    rcases hb with rfl | rfl | rfl | rfl <;> simp
  · intro b hb op hop hk
    simp only [exampleTails, List.mem_cons, List.not_mem_nil, or_false] at hb
    rcases hb with rfl | rfl | rfl | rfl <;> simp at hop <;> rcases hop with rfl | rfl <;> cases hk
    exact ⟨_, _, rfl, by simp⟩
  · intro x y bx bz hx hy hxy hal r hr z b hz hzx
    rcases x with _ | _ | _ | _ | x
    · cases hx
      rcases y with _ | _ | _ | _ | y
      · exact absurd rfl hxy
      all_goals first | (simp [exampleTails] at hy; done) | (cases hy; cases hal.term)
    · cases hx
      simp [Block.results] at hr
      subst hr
      rcases z with _ | _ | _ | _ | z
      all_goals first | exact absurd rfl hzx | (simp [exampleTails] at hz; done) | (cases hz; simp [Mentions, Term.operands])
    · cases hx
      simp [Block.results] at hr
      subst hr
      rcases z with _ | _ | _ | _ | z
      all_goals first | exact absurd rfl hzx | (simp [exampleTails] at hz; done) | (cases hz; simp [Mentions, Term.operands])
    · cases hx
      simp [Block.results] at hr
    · simp [exampleTails] at hx
  · intro b hb pre op post h r hr op' hop'
    simp only [exampleTails, List.mem_cons, List.not_mem_nil, or_false] at hb
    rcases hb with rfl | rfl | rfl | rfl
    all_goals
      rcases pre with _ | ⟨x, _ | ⟨y, pre⟩⟩ <;> simp at h
    all_goals
      first
      | (obtain ⟨rfl, rfl⟩ := h; simp at hr; done)
      | (obtain ⟨rfl, rfl⟩ := h; simp at hr hop'; rcases hop' with rfl | rfl <;> simp [hr]; done)
      | (obtain ⟨rfl, rfl, rfl⟩ := h; simp at hr hop'; subst hop'; simp)
  · intro b hb
    simp only [exampleTails, List.mem_cons, List.not_mem_nil, or_false] at hb
    rcases hb with rfl | rfl | rfl | rfl <;> simp

/-! ### Without the restriction the pass breaks programs -/

/-- A value is read before a loop (block 1) and used in it (block 2); the end of the loop (block 3) performs the same read. -/
def loopBody : Body :=
  [ { ops := [⟨some 0, .alloca 0, []⟩, ⟨none, .store, [.constant (.bool true), .register 0]⟩],
      term := .condBr (.constant (.bool true)) 1 4 },
    { ops := [⟨some 1, .load, [.register 0]⟩], term := .goto 2 },
    { ops := [⟨none, .drop 0, [.register 1, .function 0]⟩], term := .condBr (.constant (.bool false)) 3 4 },
    { ops := [⟨some 2, .load, [.register 0]⟩], term := .goto 2 },
    { ops := [], term := .ret } ]

theorem visit_eq {hash : List Token → Nat} {f : Body} {st : State} {b h : Nat} {blk : Block} {o : Option Nat}
    (h1 : f[b]? = some blk) (h2 : fingerprint hash st.replacement blk = some h)
    (h3 : findRepresentative f st.replacement h blk st.representatives = some o) :
    visit hash f st b = some (match o with
      | some r => { st with replacement := (b, r) :: st.replacement }
      | none => { st with representatives := st.representatives ++ [(h, b)] }) := by
  unfold visit
  simp only [h1, h2, h3]
  cases o <;> rfl

theorem loop_replacements (hash : List Token → Nat) :
    replacements hash loopBody {0, 1, 2, 3, 4} = some [(1, 3)] := by
  have hc : candidates loopBody {0, 1, 2, 3, 4} = [4, 3, 2, 1] := by decide
  have a34 : alphaAt loopBody [] loopBody[3] 4 = some false := by decide
  have a24 : alphaAt loopBody [] loopBody[2] 4 = some false := by decide
  have a23 : alphaAt loopBody [] loopBody[2] 3 = some false := by decide
  have a14 : alphaAt loopBody [] loopBody[1] 4 = some false := by decide
  have a13 : alphaAt loopBody [] loopBody[1] 3 = some true := by decide
  obtain ⟨h2, e2⟩ : ∃ h2, fingerprint hash [] loopBody[2] = some h2 := ⟨_, rfl⟩
  obtain ⟨h3, e3⟩ : ∃ h3, fingerprint hash [] loopBody[3] = some h3 := ⟨_, rfl⟩
  obtain ⟨h4, e4⟩ : ∃ h4, fingerprint hash [] loopBody[4] = some h4 := ⟨_, rfl⟩
  have e1 : fingerprint hash [] loopBody[1] = some h3 := by rw [← e3]; rfl
  have v4 : visit hash loopBody ⟨[], []⟩ 4 = some ⟨[(h4, 4)], []⟩ := visit_eq (o := none) rfl e4 rfl
  have v3 : visit hash loopBody ⟨[(h4, 4)], []⟩ 3 = some ⟨[(h4, 4), (h3, 3)], []⟩ :=
    visit_eq (blk := loopBody[3]) (o := none) rfl e3 (by simp only [findRepresentative, a34, ite_self])
  have v2 : visit hash loopBody ⟨[(h4, 4), (h3, 3)], []⟩ 2 = some ⟨[(h4, 4), (h3, 3), (h2, 2)], []⟩ :=
    visit_eq (blk := loopBody[2]) (o := none) rfl e2 (by simp only [findRepresentative, a24, a23, ite_self])
  have v1 : visit hash loopBody ⟨[(h4, 4), (h3, 3), (h2, 2)], []⟩ 1 = some ⟨[(h4, 4), (h3, 3), (h2, 2)], [(1, 3)]⟩ :=
    visit_eq (blk := loopBody[1]) (o := some 3) rfl e1 (by simp only [findRepresentative, a14, a13, ite_self, if_true])
  unfold replacements
  rw [hc]
  simp only [Option.bind_eq_bind, Option.bind_some, List.foldlM_cons, List.foldlM_nil, v4, v3, v2, v1]
  rfl

theorem loop_walks {n : Nat} {S : List Nat} (h : Dominance.Walk (Edit.graphOf loopBody) 0 n S) :
    0 ∈ S ∧ (n = 0 ∨ n = 4 ∨ 1 ∈ S) := by
  induction h with
  | start => simp
  | @step p n S _ he ih =>
    refine ⟨by simp [ih.1], ?_⟩
    obtain ⟨blk, h1, h2⟩ := Edit.edge_graphOf.1 he
    rcases ih.2 with rfl | rfl | h3
    · cases h1
      simp [Term.successors] at h2
      rcases h2 with rfl | rfl <;> simp
    · cases h1
      simp [Term.successors] at h2
    · simp [h3]

theorem loop_scoped : Negation.Scoped loopBody := by
  have hd0 : ∀ n, Dominance.DomW (Edit.graphOf loopBody) 0 n 0 := fun n S h => (loop_walks h).1
  have hd1 : Dominance.DomW (Edit.graphOf loopBody) 0 2 1 := fun S h => by simpa using (loop_walks h).2
  refine Negation.scoped_of_sites (by decide) ?_ ?_ ?_ ?_ ?_
  · intro p hp hk
    simp [Negation.sites, loopBody, Negation.blockSites] at hp
    rcases hp with rfl | rfl | rfl | rfl | rfl <;> first | exact ⟨_, rfl⟩ | cases hk
  · intro p hp hk
    simp [Negation.sites, loopBody, Negation.blockSites] at hp
    rcases hp with rfl | rfl | rfl | rfl | rfl <;> first | exact ⟨_, _, rfl⟩ | cases hk
  · intro p hp r hr q hq hres
    rw [Negation.before_iff]
    simp [Negation.sites, loopBody, Negation.blockSites] at hp hq
    rcases hp with rfl | rfl | rfl | rfl | rfl <;> simp at hr <;>
      rcases hq with rfl | rfl | rfl | rfl | rfl <;> simp at hres <;>
      first
      | (exact Or.inl ⟨rfl, by decide⟩)
      | (exact Or.inr ⟨by decide, hd0 _⟩)
      | (exact Or.inr ⟨by decide, hd1⟩)
      | (exfalso; omega)
  · intro b blk r hb hr q hq hres
    rcases b with _ | _ | _ | _ | _ | b
    · cases hb; simp [Term.operands] at hr
    · cases hb; simp [Term.operands] at hr
    · cases hb; simp [Term.operands] at hr
    · cases hb; simp [Term.operands] at hr
    · cases hb; simp [Term.operands] at hr
    · simp [loopBody] at hb
  · have e1 : Edit.Reachable loopBody 1 := .single ⟨_, rfl, by simp [Term.successors]⟩
    have e2 : Edit.Reachable loopBody 2 := e1.tail ⟨_, rfl, by simp [Term.successors]⟩
    intro b hb
    rcases b with _ | _ | _ | _ | _ | b
    · exact .refl
    · exact e1
    · exact e2
    · exact e2.tail ⟨_, rfl, by simp [Term.successors]⟩
    · exact e2.tail ⟨_, rfl, by simp [Term.successors]⟩
    · simp [loopBody] at hb; omega

/-- If a value defined before a loop is used in the loop and the loop ends with the same steps, the pass removes the
definition: the body it returns panics although the original one, whose registers are used within the scope of their
definitions, returns. -/
theorem C35_tails_violated : ∃ f, Valid f ∧ f ≠ [] ∧ Negation.Scoped f ∧ ∀ hash, ∃ g, simplifyTails hash f = some (some g) ∧
    ∃ (V σ : Type) (W : World V σ) (w : σ), Safe W f w ∧ (∃ w', Ends W f w (.returned w')) ∧ ¬ SameBehaviour W f g w := by
  have hr : InRange loopBody := Negation.inRange_of (by decide)
  have hne : loopBody ≠ [] := by simp [loopBody]
  refine ⟨loopBody, ⟨hr, ⟨by decide, ?_⟩, ?_⟩, hne, loop_scoped, ?_⟩
  · intro b hb
    simp only [loopBody, List.mem_cons, List.not_mem_nil, or_false] at hb
    rcases hb with rfl | rfl | rfl | rfl | rfl <;> simp
  · intro b hb op hop hk
    simp only [loopBody, List.mem_cons, List.not_mem_nil, or_false] at hb
    rcases hb with rfl | rfl | rfl | rfl | rfl <;> simp at hop
    · rcases hop with rfl | rfl <;> cases hk
      exact ⟨_, _, rfl, by simp⟩
    all_goals subst hop; cases hk
  · intro hash
    obtain ⟨reachable, q1, q2, q3, q4, q5⟩ := Edit.reachLoop_spec hr hne _ _ [0] ∅ rfl rfl (by simp)
      (by intro b hb; rw [List.mem_singleton] at hb; subst hb; exact .refl) (by simp)
    have hset : reachable = {0, 1, 2, 3, 4} := by
      have e0 := q3 0 (by simp)
      have e1 := q5 0 e0 1 ⟨_, rfl, by simp [Term.successors]⟩
      have e2 := q5 1 e1 2 ⟨_, rfl, by simp [Term.successors]⟩
      have e3 := q5 2 e2 3 ⟨_, rfl, by simp [Term.successors]⟩
      have e4 := q5 2 e2 4 ⟨_, rfl, by simp [Term.successors]⟩
      ext b
      simp only [Finset.mem_insert, Finset.mem_singleton]
      constructor
      · intro hb
        have := Edit.reachable_lt hr hne (q4 b hb)
        simp [loopBody] at this
        omega
      · rintro (rfl | rfl | rfl | rfl | rfl) <;> assumption
    subst hset
    have hin : InRange (loopBody.map (redirectBlock [(1, 3)])) := Negation.inRange_of (by decide)
    have hg1 : foldForwarding (loopBody.map (redirectBlock [(1, 3)])) = some (loopBody.map (redirectBlock [(1, 3)])) := by
      decide
    have hg2 : foldTerminals (loopBody.map (redirectBlock [(1, 3)])) = some (loopBody.map (redirectBlock [(1, 3)])) := by
      decide
    obtain ⟨g3, m, order, k1, k2, k3, k4⟩ := Edit.removeUnreachable_spec hin (by simpa using hne)
    obtain ⟨g4, h4, k5, _⟩ := Edit.mergeBlocks_spec k2.inRange (Edit.ordered_ne_nil k2)
    have hsame := (Edit.relabel_same (W := demo) k2.relabel []).trans (k5 _ _ demo [])
    refine ⟨g4, ?_, _, _, demo, [], Negation.safe_of_run (N := 10) (x := .returned _) (by rfl) (by simp), ⟨_, 10, by rfl⟩, ?_⟩
    · unfold simplifyTails
      rw [if_neg (by decide), q1]
      simp only [Option.bind_eq_bind, Option.bind_some]
      rw [loop_replacements]
      simp only [Option.bind_some]
      rw [if_pos (by decide), hg1]
      simp only [Option.bind_some]
      rw [hg2]
      simp only [Option.bind_some]
      rw [k1]
      simp only [Option.bind_some]
      rw [h4]
      rfl
    · intro h
      have hstuck : Ends demo (loopBody.map (redirectBlock [(1, 3)])) [] .stuck := ⟨10, by rfl⟩
      exact Negation.safe_of_run (W := demo) (f := loopBody) (w := []) (N := 10) (x := .returned _) (by rfl) (by simp)
        ((h.2 _).2 ((hsame.2 _).1 hstuck))

end Ferlium.TailMerge
