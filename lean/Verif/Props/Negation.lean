import Verif.Proofs.NegationStep

/-!
C34, third part: comparisons of booleans with boolean literals disappear from conditions.
-/
namespace Ferlium.Negation

open Ferlium.Mir
open Ferlium.Peephole (boolValue)
open Ferlium.Dominance Ferlium.Edit

/-- C34: the pass finishes, and the body it returns, if any, has the same executions, provided that no load reads through
a place which was itself loaded (see the violation below).  `Scoped` are rules of well-formed MIR which `Valid` does
not contain; `ComparesBools` is type soundness. -/
theorem C34_negations_removed (f : Body) (hv : Valid f) (hne : f ≠ []) (hsc : Scoped f) (hn : NoLoadedPlaces f) :
    ∃ r, forwardNegations f = some r ∧ ∀ g, r = some g → ∀ (V σ : Type) (W : World V σ) (w : σ), ComparesBools W f w →
      SameBehaviour W f g w := by
  obtain ⟨r, h1, h2⟩ := forwardNegations_spec hv hne hsc
  exact ⟨r, h1, fun g hg V σ W w hB => edited_same hv hsc hn (h2 g hg) hB⟩

/-! ### Helpers for concrete bodies -/

variable {V σ : Type} {W : World V σ} {f : Body} {w : σ}

theorem run_after {N n : Nat} {x : Exit σ} (h : run W f N (start f w) = .done x) (hn : N ≤ n) :
    run W f n (start f w) = .done x := by
  obtain ⟨k, rfl⟩ := Nat.exists_eq_add_of_le hn
  rw [run_add, h, run_done]

theorem safe_of_run {N : Nat} {x : Exit σ} (h : run W f N (start f w) = .done x) (hx : x ≠ .stuck) : Safe W f w := by
  rintro ⟨n, hn⟩
  have h1 := run_after hn (Nat.le_max_left n N)
  rw [run_after h (Nat.le_max_right n N)] at h1
  cases h1
  exact hx rfl

theorem scoped_of_sites (h1 : ∀ p ∈ sites f, p.1.kind = .store → p.1.result = none)
    (h2 : ∀ p ∈ sites f, p.1.kind = .load → ∃ v, p.1.operands = [v])
    (h3 : ∀ p ∈ sites f, p.1.kind = .compareEqual → ∃ v l, p.1.operands = [v, .pattern l])
    (h4 : ∀ p ∈ sites f, ∀ r, Value.register r ∈ p.1.operands → ∀ q ∈ sites f, q.1.result = some r →
      Before f q.2 p.2)
    (h5 : ∀ (b : Nat) (blk : Block) (r : Nat), f[b]? = some blk → Value.register r ∈ blk.term.operands →
      ∀ q ∈ sites f, q.1.result = some r → Before f q.2 ⟨b, blk.ops.length⟩)
    (h6 : AllReachable f) : Scoped f := by
  refine ⟨?_, ?_, ?_, ?_, ?_, h6⟩
  · intro b hb op hop
    obtain ⟨d, hd⟩ := opAt_of_mem hb hop
    exact h1 _ (mem_sites.2 hd)
  · intro b hb op hop
    obtain ⟨d, hd⟩ := opAt_of_mem hb hop
    exact h2 _ (mem_sites.2 hd)
  · intro b hb op hop
    obtain ⟨d, hd⟩ := opAt_of_mem hb hop
    exact h3 _ (mem_sites.2 hd)
  · intro p op r hp hr d op' hd hres
    exact h4 _ (mem_sites.2 hp) r hr _ (mem_sites.2 hd) hres
  · intro b blk r hb hr d op' hd hres
    exact h5 b blk r hb hr _ (mem_sites.2 hd) hres

/-! ### Example -/

/-- `if not x`, with `x` kept in a local. -/
def exampleNot : Body :=
  [ { ops := [⟨some 0, .alloca 0, []⟩, ⟨some 1, .compareEqual, [.constant (.bool true), .pattern (.bool true)]⟩,
        ⟨none, .store, [.register 1, .register 0]⟩, ⟨some 2, .load, [.register 0]⟩,
        ⟨some 3, .compareEqual, [.register 2, .pattern (.bool false)]⟩],
      term := .condBr (.register 3) 1 2 },
    { ops := [⟨none, .drop 0, [.constant (.other 1), .function 0]⟩], term := .ret },
    { ops := [⟨none, .drop 0, [.constant (.other 2), .function 0]⟩], term := .ret } ]

theorem exampleNot_walk (dom : Dom) :
    walk exampleNot dom ⟨3, false⟩ none = some (some ⟨1, true⟩) ∧
    walk exampleNot dom ⟨2, false⟩ none = some (some ⟨1, false⟩) := by
  have h1 : ∀ b o, walk exampleNot dom ⟨1, b⟩ o = some o := by
    intro b o
    unfold walk
    have : stepBack exampleNot dom ⟨1, b⟩ = some none := rfl
    rw [this]
    rfl
  have h2 : ∀ b o, walk exampleNot dom ⟨2, b⟩ o = some (some ⟨1, b⟩) := by
    intro b o
    unfold walk
    have : stepBack exampleNot dom ⟨2, b⟩ = some (some ⟨1, b⟩) := rfl
    rw [this]
    exact h1 b _
  refine ⟨?_, h2 false none⟩
  unfold walk
  have : stepBack exampleNot dom ⟨3, false⟩ = some (some ⟨2, true⟩) := rfl
  rw [this]
  exact h2 true _

/-- The condition becomes the original boolean, with the targets exchanged. -/
example (dom : Dom) : planTerm exampleNot dom (.condBr (.register 3) 1 2) = some (some (.condBr (.register 1) 2 1)) := by
  simp only [planTerm, resolve, (exampleNot_walk dom).1]
  rfl

theorem inRange_of (h : ∀ t ∈ f.flatMap fun b => b.term.successors, t < f.length) : InRange f :=
  fun b hb t ht => h t (List.mem_flatMap.2 ⟨b, hb, ht⟩)

example : Valid exampleNot ∧ exampleNot ≠ [] ∧ Scoped exampleNot ∧ NoLoadedPlaces exampleNot ∧
    ComparesBools demo exampleNot [] := by
  refine ⟨⟨inRange_of (by decide), ⟨by decide, ?_⟩, ?_⟩, by simp [exampleNot], scoped_of_sites ?_ ?_ ?_ ?_ ?_ ?_, ?_, ?_⟩
  · intro b hb
    simp only [exampleNot, List.mem_cons, List.not_mem_nil, or_false] at hb
    rcases hb with rfl | rfl | rfl <;> simp
  · intro b hb op hop hk
    simp only [exampleNot, List.mem_cons, List.not_mem_nil, or_false] at hb
    rcases hb with rfl | rfl | rfl <;> simp at hop
    · rcases hop with rfl | rfl | rfl | rfl | rfl <;> cases hk
      refine ⟨_, _, rfl, ?_⟩
      rintro q r _ _ hr ⟨b, hb, op, hop, hr', ty, hty⟩
      cases hr
      simp only [exampleNot, List.mem_cons, List.not_mem_nil, or_false] at hb
      rcases hb with rfl | rfl | rfl <;> simp at hop
      · rcases hop with rfl | rfl | rfl | rfl | rfl <;> simp_all
      · subst hop; cases hr'
      · subst hop; cases hr'
    · subst hop; cases hk
    · subst hop; cases hk
  · decide
  · intro p hp hk
    have hp' : p ∈ (sites exampleNot) := hp
    simp [sites, exampleNot, blockSites] at hp'
    rcases hp' with rfl | rfl | rfl | rfl | rfl | rfl | rfl <;> first | exact ⟨_, rfl⟩ | cases hk
  · intro p hp hk
    simp [sites, exampleNot, blockSites] at hp
    rcases hp with rfl | rfl | rfl | rfl | rfl | rfl | rfl <;> first | exact ⟨_, _, rfl⟩ | cases hk
  · intro p hp r hr q hq hres
    simp [sites, exampleNot, blockSites] at hp hq
    rcases hp with rfl | rfl | rfl | rfl | rfl | rfl | rfl <;> simp at hr <;>
      rcases hq with rfl | rfl | rfl | rfl | rfl | rfl | rfl <;> simp at hres <;>
      first
      | (exact Or.inl ⟨rfl, by decide⟩)
      | (exfalso; omega)
  · intro b blk r hb hr q hq hres
    simp [sites, exampleNot, blockSites] at hq
    rcases b with _ | _ | _ | b
    · cases hb
      simp [Term.operands] at hr
      rcases hq with rfl | rfl | rfl | rfl | rfl | rfl | rfl <;> simp at hres <;>
        first
        | (exact Or.inl ⟨rfl, by simp⟩)
        | (exfalso; omega)
    · cases hb; simp [Term.operands] at hr
    · cases hb; simp [Term.operands] at hr
    · simp [exampleNot] at hb
  · intro b hb
    rcases b with _ | _ | _ | b
    · exact .refl
    · exact .single ⟨_, rfl, by simp [Term.successors]⟩
    · exact .single ⟨_, rfl, by simp [Term.successors]⟩
    · simp [exampleNot] at hb; omega
  · intro b hb op hop hk r hr hm
    simp only [exampleNot, List.mem_cons, List.not_mem_nil, or_false] at hb
    rcases hb with rfl | rfl | rfl <;> simp at hop
    · rcases hop with rfl | rfl | rfl | rfl | rfl <;> cases hk
      cases hr
      obtain ⟨d, op, hd, hres, hm⟩ := hm
      have hd := mem_sites.2 hd
      simp [sites, exampleNot, blockSites] at hd
      rcases hd with ⟨rfl, -⟩ | ⟨rfl, -⟩ | ⟨rfl, -⟩ | ⟨rfl, -⟩ | ⟨rfl, -⟩ | ⟨rfl, -⟩ | ⟨rfl, -⟩ <;>
        first
        | (cases hres; done)
        | (cases hres; cases hm)
    · subst hop; cases hk
    · subst hop; cases hk
  · intro n op ops t s r l hrun hk ho hl
    have hlt : n < 8 := by
      by_contra hn
      rw [run_after (N := 8) (x := .returned _) (by rfl) (by omega)] at hrun
      cases hrun
    interval_cases n <;>
      first
      | (cases hrun; cases hk; done)
      | (cases hrun; cases ho; done)
      | (cases hrun; cases ho; exact ⟨fun _ x o hx => by cases hx; rfl, fun x hx => by cases hx⟩)
      | (cases hrun; done)

/-! ### Violation -/

/-- `if a[i]`, with the pointer to the element kept in a local. -/
def pointerBody : Body :=
  [ { ops := [⟨some 0, .alloca 0, []⟩, ⟨none, .store, [.parameter 0, .register 0]⟩,
        ⟨some 1, .load, [.register 0]⟩, ⟨some 2, .load, [.register 1]⟩,
        ⟨some 3, .compareEqual, [.constant (.bool true), .pattern (.bool true)]⟩],
      term := .condBr (.register 2) 1 2 },
    { ops := [], term := .ret },
    { ops := [], term := .ret } ]

/-- What the pass makes of it: the pointer is the condition. -/
def pointerEdited : Body :=
  [ { ops := [⟨some 0, .alloca 0, []⟩, ⟨none, .store, [.parameter 0, .register 0]⟩,
        ⟨some 1, .load, [.register 0]⟩, ⟨some 2, .load, [.register 1]⟩,
        ⟨some 3, .compareEqual, [.constant (.bool true), .pattern (.bool true)]⟩],
      term := .condBr (.register 1) 1 2 },
    { ops := [], term := .ret },
    { ops := [], term := .ret } ]

/-- A world in which a load through the pointer 7 gives `true`. -/
def pointerWorld : World (Bool ⊕ Nat) (List Nat) :=
  { demo with
    exec := fun kind args w =>
      match kind, args with
      | .load, [.value (.inr 7)] => .ok w (some (.inl true)) none
      | kind, args => demo.exec kind args w }

theorem pointer_walk (dom : Dom) : walk pointerBody dom ⟨2, false⟩ none = some (some ⟨1, false⟩) := by
  unfold walk
  have : stepBack pointerBody dom ⟨2, false⟩ = some (some ⟨1, false⟩) := rfl
  rw [this]
  change walk pointerBody dom ⟨1, false⟩ (some ⟨1, false⟩) = _
  unfold walk
  have : stepBack pointerBody dom ⟨1, false⟩ = some none := rfl
  rw [this]
  rfl

theorem pointer_edited : forwardNegations pointerBody = some (some pointerEdited) := by
  unfold forwardNegations
  obtain ⟨dom, h1, -⟩ := domOk (f := pointerBody) (inRange_of (by decide)) (by simp [pointerBody])
  have h2 : planTerm pointerBody dom (.condBr (.register 2) 1 2) = some (some (.condBr (.register 1) 1 2)) := by
    simp only [planTerm, resolve, pointer_walk]
    rfl
  have h3 : pointerBody.zipIdx.mapM (planBlock pointerBody dom) =
      some [([none, none, none, none, none], some (.condBr (.register 1) 1 2)), ([], none), ([], none)] := by
    have e : planBlock pointerBody dom (pointerBody[0], 0) =
        some ([none, none, none, none, none], some (.condBr (.register 1) 1 2)) := by
      unfold planBlock
      have e1 : (blockSites (pointerBody[0], 0)).mapM (planOp pointerBody dom) = some [none, none, none, none, none] := rfl
      rw [e1]
      simp only [Option.bind_eq_bind, Option.bind_some]
      change planTerm pointerBody dom (.condBr (.register 2) 1 2) >>= _ = _
      rw [h2]
      rfl
    have e' : ∀ b, planBlock pointerBody dom (⟨[], .ret⟩, b) = some ([], none) := fun b => rfl
    change [(pointerBody[0], 0), ((⟨[], .ret⟩ : Block), 1), ((⟨[], .ret⟩ : Block), 2)].mapM (planBlock pointerBody dom) = _
    simp [e, e']
  rw [if_pos (by decide), h1]
  simp only [Option.bind_eq_bind, Option.bind_some]
  rw [h3]
  rfl

/-- Without the restriction on loads the pass breaks programs: a boolean read through a loaded pointer is replaced by
the pointer, and the branch panics. -/
theorem C34_negations_violated : ∃ f g, Valid f ∧ f ≠ [] ∧ Scoped f ∧ forwardNegations f = some (some g) ∧
    ∃ (V σ : Type) (W : World V σ) (w : σ), ComparesBools W f w ∧ Safe W f w ∧ Ends W g w .stuck := by
  refine ⟨pointerBody, pointerEdited, ⟨inRange_of (by decide), ⟨by decide, ?_⟩, ?_⟩, by simp [pointerBody],
    scoped_of_sites (by decide) ?_ ?_ ?_ ?_ ?_, pointer_edited, _, _, pointerWorld, [], ?_,
    safe_of_run (N := 7) (x := .returned []) (by rfl) (by simp), ⟨6, by rfl⟩⟩
  · intro b hb
    simp only [pointerBody, List.mem_cons, List.not_mem_nil, or_false] at hb
    rcases hb with rfl | rfl | rfl <;> simp
  · intro b hb op hop hk
    simp only [pointerBody, List.mem_cons, List.not_mem_nil, or_false] at hb
    rcases hb with rfl | rfl | rfl <;> simp at hop
    rcases hop with rfl | rfl | rfl | rfl | rfl <;> cases hk
    exact ⟨_, _, rfl, fun q r _ _ h => by cases h⟩
  · intro p hp hk
    simp [sites, pointerBody, blockSites] at hp
    rcases hp with rfl | rfl | rfl | rfl | rfl <;> first | exact ⟨_, rfl⟩ | cases hk
  · intro p hp hk
    simp [sites, pointerBody, blockSites] at hp
    rcases hp with rfl | rfl | rfl | rfl | rfl <;> first | exact ⟨_, _, rfl⟩ | cases hk
  · intro p hp r hr q hq hres
    simp [sites, pointerBody, blockSites] at hp hq
    rcases hp with rfl | rfl | rfl | rfl | rfl <;> simp at hr <;>
      rcases hq with rfl | rfl | rfl | rfl | rfl <;> simp at hres <;>
      first
      | (exact Or.inl ⟨rfl, by decide⟩)
      | (exfalso; omega)
  · intro b blk r hb hr q hq hres
    simp [sites, pointerBody, blockSites] at hq
    rcases b with _ | _ | _ | b
    · cases hb
      simp [Term.operands] at hr
      rcases hq with rfl | rfl | rfl | rfl | rfl <;> simp at hres <;>
        first
        | (exact Or.inl ⟨rfl, by simp⟩)
        | (exfalso; omega)
    · cases hb; simp [Term.operands] at hr
    · cases hb; simp [Term.operands] at hr
    · simp [pointerBody] at hb
  · intro b hb
    rcases b with _ | _ | _ | b
    · exact .refl
    · exact .single ⟨_, rfl, by simp [Term.successors]⟩
    · exact .single ⟨_, rfl, by simp [Term.successors]⟩
    · simp [pointerBody] at hb; omega
  · intro n op ops t s r l hrun hk ho hl
    have hlt : n < 7 := by
      by_contra hn
      rw [run_after (N := 7) (x := .returned []) (by rfl) (by omega)] at hrun
      cases hrun
    interval_cases n <;> cases hrun <;> first | (cases hk; done) | (cases ho; done)

end Ferlium.Negation
