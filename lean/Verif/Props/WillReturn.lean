import Verif.Proofs.WillReturnModule
import Verif.Proofs.Mir

/-!
C36: functions which the optimizer takes to return do return.
-/
namespace Ferlium.WillReturn

open Ferlium.Mir Ferlium.Edit

/-- C36: every execution of a function proved to return is finite: no loop, no unbounded recursion, whatever the data.
Functions of other modules taken to return are assumed to do so. -/
theorem C36_proved_functions_finish (order : List Nat → List Nat) (horder : ∀ l, (order l).Perm l) (index : Nat → Option Nat)
    (external : Nat → Bool) (bodies : List (Option Body)) (others : Nat → Option Body)
    (hidx : ∀ k i, index k = some i → i < bodies.length) (hb : Bodies bodies)
    (hext : ∀ k, index k = none → external k = true → Finishes (program index others bodies) k) :
    ∃ known, ofModule order index external bodies = some known ∧
      ∀ k i, index k = some i → summary known i = true → Finishes (program index others bodies) k := by
  obtain ⟨known, h1, h2, h3⟩ := ofModule_spec (external := external) order horder hidx hb
  refine ⟨known, h1, ?_⟩
  intro k i hk hs
  rw [finishes_iff]
  refine returns_halts hb (fun k h1 h2 => finishes_iff.1 (hext k h1 h2)) ((h3 i).1 ?_) k hk
  unfold summary at hs
  cases hg : known[i]? with
  | none => simp [hg] at hs
  | some x => simp [hg] at hs; rw [hs]

/-- C36: exactly the functions without loops which run only named functions of the same kind are proved, whatever the
order in which they are visited. -/
theorem C36_summaries_exact (order : List Nat → List Nat) (horder : ∀ l, (order l).Perm l) (index : Nat → Option Nat)
    (external : Nat → Bool) (bodies : List (Option Body)) (hidx : ∀ k i, index k = some i → i < bodies.length)
    (hb : Bodies bodies) : ∃ known, ofModule order index external bodies = some known ∧
      ∀ i, summary known i = true ↔ Returns index external bodies i := by
  obtain ⟨known, h1, h2, h3⟩ := ofModule_spec (external := external) order horder hidx hb
  refine ⟨known, h1, fun i => ?_⟩
  rw [← h3 i]
  unfold summary
  cases hg : known[i]? with
  | none => simp
  | some x => simp

/-- The function runs the other one. -/
def Runs (index : Nat → Option Nat) (bodies : List (Option Body)) (i j : Nat) : Prop :=
  ∃ f k, bodies[i]? = some (some f) ∧ Calls f k ∧ index k = some j

/-- C36: a function which may run itself, directly or through others, is not proved. -/
theorem C36_recursion_not_proved (order : List Nat → List Nat) (horder : ∀ l, (order l).Perm l) (index : Nat → Option Nat)
    (external : Nat → Bool) (bodies : List (Option Body)) (hidx : ∀ k i, index k = some i → i < bodies.length)
    (hb : Bodies bodies) : ∃ known, ofModule order index external bodies = some known ∧
      ∀ i, Relation.TransGen (Runs index bodies) i i → summary known i = false := by
  obtain ⟨known, h1, h2⟩ := C36_summaries_exact order horder index external bodies hidx hb
  refine ⟨known, h1, fun i hi => ?_⟩
  rw [← Bool.not_eq_true, h2 i]
  intro hr
  have hacc : Acc (fun a b => Runs index bodies b a) i := by
    clear hi
    induction hr with
    | host h => exact ⟨_, fun j ⟨f, k, hf, _⟩ => by rw [h] at hf; cases hf⟩
    | script h _ _ _ _ ih =>
      refine ⟨_, fun j ⟨f, k, hf, hc, hk⟩ => ?_⟩
      rw [h] at hf
      cases hf
      exact ih k j hc hk
  have hacc' := hacc.transGen
  have hirr : ∀ x, Acc (Relation.TransGen fun a b => Runs index bodies b a) x →
      ¬ Relation.TransGen (fun a b => Runs index bodies b a) x x := by
    intro x hx
    induction hx with
    | intro x _ ih => intro h; exact ih x h h
  exact hirr i hacc' (Relation.transGen_swap.2 hi)

variable {V σ : Type}

/-- C36, for one body and its operations taken as steps: a body from which a proof was derived ends, in every world. -/
theorem C36_body_ends (index : Nat → Option Nat) (external : Nat → Bool) (known : List Bool) (f : Body) (hr : InRange f)
    (hne : f ≠ []) (h : derive index external known f = some true) (W : World V σ) (w : σ) : ∃ x, Ends W f w x := by
  obtain ⟨d, h1, h2⟩ := derive_spec (index := index) (external := external) (known := known) hr hne
  rw [h] at h1
  cases h1
  obtain ⟨hac, _, _⟩ := h2.1 rfl
  let T := {b // Reachable f b}
  haveI : Finite T := Finite.of_injective (fun b : T => (⟨b.1, reachable_lt hr hne b.2⟩ : Fin f.length)) (by
    intro a b h; exact Subtype.ext (by simpa using h))
  let r : T → T → Prop := fun a b => Relation.TransGen (BlockEdge f) b.1 a.1
  haveI : IsTrans T r := ⟨fun a b c h1 h2 => h2.trans h1⟩
  haveI : Std.Irrefl r := ⟨fun a h => hac a.1 a.2 h⟩
  have hwf : WellFounded r := Finite.wellFounded_of_trans_of_irrefl r
  have hdone : ∀ {c : Config V σ}, (∃ n x, run W f n (step W f c) = .done x) → ∃ n x, run W f n c = .done x := by
    rintro c ⟨n, x, h⟩
    exact ⟨n + 1, x, by rw [Nat.add_comm, run_add]; exact h⟩
  have key : ∀ b : T, ∀ s : St V σ, ∃ n x, run W f n (enter f b.1 s) = .done x := by
    intro b
    induction b using hwf.induction with
    | _ b ih =>
      have hgo : ∀ b', BlockEdge f b.1 b' → ∀ s : St V σ, ∃ n x, run W f n (enter f b' s) = .done x :=
        fun b' he => ih ⟨b', b.2.tail he⟩ (.single he)
      have hb := List.getElem?_eq_getElem (reachable_lt hr hne b.2)
      have hops : ∀ (ops : List Op) (s : St V σ), ∃ n x, run W f n (.at ops (f[b.1]'(reachable_lt hr hne b.2)).term s) = .done x := by
        intro ops
        induction ops with
        | nil =>
          intro s
          apply hdone
          have hs : ∀ t ∈ (f[b.1]'(reachable_lt hr hne b.2)).term.successors, BlockEdge f b.1 t := fun t ht => ⟨_, hb, ht⟩
          revert hs
          generalize (f[b.1]'(reachable_lt hr hne b.2)).term = t
          intro hs
          simp only [step]
          cases t with
          | goto b => exact hgo _ (hs _ (by simp [Term.successors])) _
          | condBr c t e =>
            simp only [stepTerm]
            split
            · exact hgo _ (hs _ (by simp [Term.successors])) _
            · exact hgo _ (hs _ (by simp [Term.successors])) _
            · exact ⟨0, _, rfl⟩
          | invoke op n e =>
            simp only [stepTerm]
            split
            · exact hgo _ (hs _ (by simp [Term.successors])) _
            · exact hgo _ (hs _ (by simp [Term.successors])) _
            · exact ⟨0, _, rfl⟩
            · exact ⟨0, _, rfl⟩
          | yield v r =>
            simp only [stepTerm]
            split
            · split
              · exact hgo _ (hs _ (by simp [Term.successors])) _
              · exact ⟨0, _, rfl⟩
            · exact ⟨0, _, rfl⟩
          | ret => exact ⟨0, _, rfl⟩
          | propagateError => exact ⟨0, _, rfl⟩
          | cleanupFailure => exact ⟨0, _, rfl⟩
        | cons op ops ih' =>
          intro s
          apply hdone
          simp only [step]
          cases execOp W op.direct op s with
          | ok s' => exact ih' s'
          | error s' => exact ⟨0, _, rfl⟩
          | halt w' => exact ⟨0, _, rfl⟩
          | stuck => exact ⟨0, _, rfl⟩
      intro s
      unfold enter
      rw [hb]
      exact hops _ s
  obtain ⟨n, x, hx⟩ := key ⟨0, .refl⟩ ⟨fun _ => none, w⟩
  exact ⟨x, n, hx⟩

/-! A module of four functions: 0 is a function of the host, 1 branches and calls 0 and the function 9 of another
module, 2 calls 1 and itself, 3 loops. -/

/-- A call of a function. -/
def exCall (k : Nat) : Op := { result := none, kind := .call 0 0, operands := [.function k] }

/-- Function 1. -/
def exOne : Body :=
  [{ ops := [exCall 0], term := .condBr (.parameter 0) 1 2 }, { ops := [exCall 9], term := .goto 2 }, { ops := [], term := .ret }]

/-- Function 2. -/
def exTwo : Body := [{ ops := [exCall 1], term := .condBr (.parameter 0) 1 2 }, { ops := [exCall 2], term := .goto 2 },
  { ops := [], term := .ret }]

/-- Function 3. -/
def exThree : Body := [{ ops := [], term := .condBr (.parameter 0) 0 1 }, { ops := [], term := .ret }]

/-- The module. -/
def exModule : List (Option Body) := [none, some exOne, some exTwo, some exThree]

/-- The functions of the module. -/
def exIndex (k : Nat) : Option Nat := if k < 4 then some k else none

theorem exBodies : Bodies exModule := by
  intro f hf
  simp only [exModule, List.mem_cons, List.not_mem_nil, or_false, reduceCtorEq, false_or, Option.some.injEq] at hf
  rcases hf with rfl | rfl | rfl
  · exact ⟨by simp [InRange, exOne, Term.successors], by simp [exOne]⟩
  · exact ⟨by simp [InRange, exTwo, Term.successors], by simp [exTwo]⟩
  · exact ⟨by simp [InRange, exThree, Term.successors], by simp [exThree]⟩

theorem exIndex_lt : ∀ k i, exIndex k = some i → i < exModule.length := by
  intro k i h
  unfold exIndex at h
  split at h
  · cases h; assumption
  · cases h

/-- The assumption of `C36_proved_functions_finish` on other modules is met when 9 is a function of the host. -/
example : ∀ k, exIndex k = none → decide (k = 9) = true → Finishes (program exIndex (fun _ => none) exModule) k := by
  intro k _ hk
  rw [of_decide_eq_true hk, finishes_iff]
  exact halts_nil

/-- Function 1 is proved. -/
example : Returns exIndex (fun k => decide (k = 9)) exModule 1 := by
  have hget : ∀ {b : Nat} {blk : Block}, exOne[b]? = some blk → blk = exOne[0] ∨ blk = exOne[1] ∨ blk = exOne[2] := by
    intro b blk h
    have := List.mem_of_getElem? h
    simpa [exOne] using this
  have hedge : ∀ a b, BlockEdge exOne a b → a < b := by
    rintro a b ⟨blk, h1, h2⟩
    rcases a with _ | _ | _ | a
    · simp [exOne] at h1
      subst h1
      simp [Term.successors] at h2
      omega
    · simp [exOne] at h1
      subst h1
      simp [Term.successors] at h2
      omega
    · simp [exOne] at h1
      subst h1
      simp [Term.successors] at h2
    · simp [exOne] at h1
  have htrans : ∀ a b, Relation.TransGen (BlockEdge exOne) a b → a < b := by
    intro a b h
    induction h with
    | single h => exact hedge _ _ h
    | tail _ h ih => exact ih.trans (hedge _ _ h)
  have hcalls : ∀ k, Calls exOne k → k = 0 ∨ k = 9 := by
    rintro k ⟨b, blk, op, _, h1, h2, h3⟩
    rcases hget h1 with rfl | rfl | rfl <;> simp [exOne, blockOps, exCall] at h2 <;> subst h2 <;>
      simp [calleeOperand] at h3 <;> omega
  refine .script (f := exOne) rfl (fun b _ h => absurd (htrans b b h) (Nat.lt_irrefl b)) ?_ ?_ ?_
  · intro b blk _ h1
    refine ⟨fun op h2 => ?_, ?_⟩
    · rcases hget h1 with rfl | rfl | rfl <;> simp [exOne, blockOps, exCall] at h2 <;> subst h2 <;>
        simp [calleeOperand, RunsValues]
    · rcases hget h1 with rfl | rfl | rfl <;> simp [exOne]
  · intro k j hk hj
    rcases hcalls k hk with rfl | rfl
    · simp [exIndex] at hj
      subst hj
      exact .host rfl
    · simp [exIndex] at hj
  · intro k hk hj
    rcases hcalls k hk with rfl | rfl
    · simp [exIndex] at hj
    · rfl

/-- Function 2 runs itself: it is not proved. -/
example : Relation.TransGen (Runs exIndex exModule) 2 2 :=
  .single ⟨exTwo, 2, rfl, ⟨1, _, exCall 2, .single ⟨_, rfl, by simp [exTwo, Term.successors]⟩, rfl, by simp [blockOps, exTwo], rfl⟩, rfl⟩

/-- Function 3 loops: it is not proved. -/
example : ¬ Returns exIndex (fun k => decide (k = 9)) exModule 3 := by
  intro h
  cases h with
  | host h => cases h
  | script h hac =>
    cases h
    exact hac 0 .refl (.single ⟨_, rfl, by simp [exThree, Term.successors]⟩)

/-- And indeed it may run for ever. -/
example : ¬ Finishes (program exIndex (fun _ => none) exModule) 3 := by
  intro h
  refine h ⟨fun _ => [⟨exThree, [], .condBr (.parameter 0) 0 1⟩], rfl, fun n => ?_⟩
  exact .jump (b := 0) (by simp [Term.successors]) rfl

/-- The assumption of `C36_body_ends`. -/
example : InRange exOne ∧ exOne ≠ [] := exBodies exOne (by simp [exModule])

end Ferlium.WillReturn
