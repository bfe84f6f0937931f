import Verif.Proofs.DeadStoreSim

/-!
C33: removing the stores which the optimizer judges overwritten changes nothing that can be observed.
-/
namespace Ferlium.DeadStore

open Ferlium.Mir

/-! ### Specification: when is a store useless? -/

/-- From this point of the code, the content of the local `r` may be read before it is overwritten. -/
inductive ReadFirst (f : Body) : List Op → Term → Nat → Prop
  | here {op ops t r i} : op.operands[i]? = some (.register r) → op.readsWhole i = true → ReadFirst f (op :: ops) t r
  | later {op ops t r i} : (op.writeIndex = some i → op.operands[i]? ≠ some (.register r)) → op.writeIndex = some i →
      ReadFirst f ops t r → ReadFirst f (op :: ops) t r
  | skip {op ops t r} : op.writeIndex = none → ReadFirst f ops t r → ReadFirst f (op :: ops) t r
  | jump {t r s b} : s ∈ t.successors → f[s]? = some b → ReadFirst f b.ops b.term r → ReadFirst f [] t r

/-- A local of trivially copyable type which is only loaded, copied, moved out and overwritten as a whole, by
operations which cannot fail. -/
def PlainLocal (trivial : Nat → Bool) (f : Body) (r : Nat) : Prop :=
  (∃ b ∈ f, ∃ op ∈ b.ops, op.result = some r ∧ ∃ ty, op.kind = .alloca ty ∧ trivial ty = true) ∧
  ∀ b ∈ f, Value.register r ∉ b.term.operands ∧ ∀ op ∈ b.ops, ∀ i : Nat, op.operands[i]? = some (.register r) →
    op.writeIndex = some i ∨ (op.readsWhole i = true ∧ op.kind ≠ .compareEqual)

/-- The register owns its value. -/
def Owned (f : Body) (v : Value) : Prop :=
  ∃ r, v = .register r ∧ ∃ b ∈ f, ∃ op ∈ b.ops, op.result = some r ∧ op.owned = true

/-- A store of a value which is not owned into a local whose content is overwritten before it is read on every path. -/
def Useless (trivial : Nat → Bool) (f : Body) (op : Op) (rest : List Op) (t : Term) : Prop :=
  op.kind = .store ∧ (∀ v, op.operands.head? = some v → ¬ Owned f v) ∧
    ∃ r, op.operands[1]? = some (.register r) ∧ PlainLocal trivial f r ∧ ¬ ReadFirst f rest t r

/-- `ops'` are the operations `ops` of a block without the useless stores. -/
inductive WithoutUseless (trivial : Nat → Bool) (f : Body) (t : Term) : List Op → List Op → Prop
  | nil : WithoutUseless trivial f t [] []
  | keep {op ops ops'} : ¬ Useless trivial f op ops t → WithoutUseless trivial f t ops ops' →
      WithoutUseless trivial f t (op :: ops) (op :: ops')
  | drop {op ops ops'} : Useless trivial f op ops t → WithoutUseless trivial f t ops ops' →
      WithoutUseless trivial f t (op :: ops) ops'

/-! ### Properties -/

/-- C33: the pass finishes on every valid body, and the body it returns behaves like the original in every world, in
every execution which does not panic: the world goes through the same states and the call ends in the same way. -/
theorem C33_same_behaviour (trivial : Nat → Bool) (f : Body) (hf : Valid f) :
    ∃ g, removeDeadStores trivial f = some g ∧
      ∀ (V σ : Type) (W : World V σ) (w : σ), Safe W f w → SameBehaviour W f g w := by
  obtain ⟨l, _, h⟩ := removeDeadStores_eq (trivial := trivial) hf.inRange
  exact ⟨_, h, fun V σ W w hw => same_behaviour hf.inRange hf.single hf.stores h hw⟩

theorem plainLocal_iff {trivial : Nat → Bool} {f : Body} {r : Nat} :
    r ∈ candidates trivial f ↔ PlainLocal trivial f r := by
  rw [mem_candidates_iff]
  unfold PlainLocal
  apply and_congr
  · simp only [allocas, List.mem_toFinset, List.mem_flatMap, List.mem_filterMap]
    constructor
    · rintro ⟨b, hb, op, hop, h⟩
      refine ⟨b, hb, op, hop, ?_⟩
      unfold candidateOf at h
      split at h
      · rename_i ty hk
        split at h
        · exact ⟨h, ty, hk, by assumption⟩
        · cases h
      · cases h
    · rintro ⟨b, hb, op, hop, hr, ty, hk, ht⟩
      exact ⟨b, hb, op, hop, by simp [candidateOf, hk, ht, hr]⟩
  · refine forall₂_congr fun b hb => ?_
    rw [and_comm]
    apply and_congr_right
    intro _
    refine forall₂_congr fun op hop => ?_
    unfold GoodUse
    refine forall₂_congr fun i hi => ?_
    rw [wholePlaceWrite_eq]
    apply or_congr_right
    unfold exactRead Op.readsWhole
    cases hk : op.kind <;> simp

theorem readFirst_iff {trivial : Nat → Bool} {f : Body} {l : List (Finset Nat)}
    (hI : Inv f (candidates trivial f) [] l) {r : Nat} (hr : r ∈ candidates trivial f) {ops : List Op} {t : Term}
    (hc : CodeOf f ops t) :
    r ∈ transfer (candidates trivial f) ops (outOf l t) ↔ ReadFirst f ops t r := by
  have hgood : ∀ ops t, CodeOf f ops t → ∀ op ∈ ops, ∀ i, op.operands[i]? = some (.register r) →
      (exactRead op i = true ↔ op.readsWhole i = true) := by
    rintro ops t ⟨b, hb, ⟨pre, hpre⟩, _⟩ op hop i hi
    refine ⟨exactRead_reads, fun h => ?_⟩
    rcases ((mem_candidates hr).2 b hb).1 op (by rw [hpre]; simp [hop]) i hi with h1 | h1
    · exfalso
      simp only [wholePlaceWrite] at h1
      split at h1
      · rename_i hk; simp [Op.readsWhole, hk] at h
      · rename_i hk; cases h1; simp [Op.readsWhole, hk] at h
      · rename_i hk; simp [Op.readsWhole, hk] at h
      · cases h1
    · exact h1
  have hroot : ∀ op, writtenRoot (candidates trivial f) op ≠ some r ↔
      ∀ i, op.writeIndex = some i → op.operands[i]? ≠ some (.register r) := by
    intro op
    unfold writtenRoot
    rw [wholePlaceWrite_eq]
    cases op.writeIndex with
    | none => simp
    | some i =>
      simp only []
      cases hi : op.operands[i]? with
      | none => simp [hi]
      | some v =>
        cases v with
        | register q =>
          simp only []
          split
          · simp [hi]
          · rename_i hq
            simp only [ne_eq, reduceCtorEq, not_false_eq_true, Option.some.injEq, true_iff]
            rintro _ rfl h
            rw [hi] at h
            cases h
            exact hq hr
        | _ => simp [hi]
  have htail : ∀ {op ops t}, CodeOf f (op :: ops) t → CodeOf f ops t := by
    rintro op ops t ⟨b, hb, ⟨pre, hpre⟩, ht⟩
    exact ⟨b, hb, ⟨pre ++ [op], by simp [hpre]⟩, ht⟩
  constructor
  · intro h
    have hm : MayRead f (candidates trivial f) ops t r := by
      refine mayRead_of_mem (out := outOf l t) ?_ ?_ ops r h
      · intro q hq
        obtain ⟨s, _, h⟩ := mem_outOf.1 hq
        exact hI.sub s h
      · intro q hq
        obtain ⟨s, h1, h2⟩ := mem_outOf.1 hq
        have hs : s < f.length := by
          by_contra hs
          simp [lv, List.getElem?_eq_none (by rw [hI.len]; omega : l.length ≤ s)] at h2
        exact .jump h1 (List.getElem?_eq_getElem hs) (hI.reason s _ (List.getElem?_eq_getElem hs) q h2)
    clear h
    induction hm with
    | read h1 h2 => exact .here h1 ((hgood _ _ hc _ (by simp) _ h1).1 h2)
    | @later op ops t r h1 _ ih =>
      cases hw : op.writeIndex with
      | none => exact .skip hw (ih hr (htail hc) hgood hroot)
      | some i => exact .later (fun h => (hroot op).1 h1 i h) hw (ih hr (htail hc) hgood hroot)
    | jump h1 h2 _ ih =>
      exact .jump h1 h2 (ih hr ⟨_, List.mem_of_getElem? h2, ⟨[], rfl⟩, rfl⟩ hgood hroot)
  · intro h
    induction h with
    | here h1 h2 =>
      exact mem_transferOp.2 (Or.inr ⟨hr, _, h1, (hgood _ _ hc _ (by simp) _ h1).2 h2⟩)
    | @later op ops t r i h1 h2 _ ih =>
      refine mem_transferOp.2 (Or.inl ⟨ih hr (htail hc) hgood hroot, (hroot op).2 ?_⟩)
      intro j hj
      rw [h2] at hj; cases hj
      exact h1 h2
    | @skip op ops t r h1 _ ih =>
      refine mem_transferOp.2 (Or.inl ⟨ih hr (htail hc) hgood hroot, (hroot op).2 ?_⟩)
      intro j hj
      rw [h1] at hj; cases hj
    | @jump t r s b h1 h2 _ ih =>
      have := ih hr ⟨_, List.mem_of_getElem? h2, ⟨[], rfl⟩, rfl⟩ hgood hroot
      refine mem_outOf.2 ⟨s, h1, ?_⟩
      rcases hI.fixed s b h2 with h | h
      · cases h
      · rw [h]; exact this

/-- C33: exactly the useless stores are removed; nothing else changes. -/
theorem C33_exactly_useless_stores_removed (trivial : Nat → Bool) (f : Body) (hf : Valid f) :
    ∃ g, removeDeadStores trivial f = some g ∧ g.length = f.length ∧
      ∀ (i : Nat) b, f[i]? = some b → ∃ ops', g[i]? = some { b with ops := ops' } ∧
        WithoutUseless trivial f b.term b.ops ops' := by
  obtain ⟨l, hI, h⟩ := removeDeadStores_eq (trivial := trivial) hf.inRange
  refine ⟨_, h, by simp, fun i b hb =>
    ⟨sweep (candidates trivial f) (consuming f) b.ops (outOf l b.term), by simp [hb], ?_⟩⟩
  have key : ∀ ops, CodeOf f ops b.term →
      WithoutUseless trivial f b.term ops (sweep (candidates trivial f) (consuming f) ops (outOf l b.term)) := by
    intro ops
    induction ops with
    | nil => intro _; exact .nil
    | cons op ops ih =>
      intro hc
      have hc' : CodeOf f ops b.term := by
        obtain ⟨b', hb', ⟨pre, hpre⟩, ht⟩ := hc
        exact ⟨b', hb', ⟨pre ++ [op], by simp [hpre]⟩, ht⟩
      have hdead : dead (candidates trivial f) (consuming f)
          (transfer (candidates trivial f) ops (outOf l b.term)) op = true ↔ Useless trivial f op ops b.term := by
        constructor
        · intro hd
          obtain ⟨h1, h2, r, h3, h4, h5⟩ := dead_spec hd
          refine ⟨h1, ?_, r, h3, plainLocal_iff.1 h4, fun h => h5 ((readFirst_iff hI h4 hc').2 h)⟩
          rintro v hv ⟨q, rfl, b', hb', op', hop', hr', ho'⟩
          exact h2 q hv (mem_consuming hb' hop' ho' hr')
        · rintro ⟨h1, h2, r, h3, h4, h5⟩
          have hrc := plainLocal_iff.2 h4
          have hw : writtenRoot (candidates trivial f) op = some r := by
            simp [writtenRoot, wholePlaceWrite, h1, h3, hrc]
          have hsrc : sourceConsumed (consuming f) op = false := by
            unfold sourceConsumed
            split
            · rename_i q hq
              rw [decide_eq_false_iff_not]
              intro hk
              simp only [consuming, List.mem_toFinset, List.mem_flatMap, List.mem_filterMap, List.mem_filter] at hk
              obtain ⟨b', hb', op', ⟨ho', how'⟩, hr'⟩ := hk
              exact h2 _ hq ⟨q, rfl, b', hb', op', ho', hr', how'⟩
            · rfl
          unfold dead
          rw [hw]
          simp only [h1, hsrc, decide_true, Bool.not_false, Bool.true_and, decide_eq_true_eq]
          exact fun h => h5 ((readFirst_iff hI hrc hc').1 h)
      simp only [sweep]
      split
      · rename_i hd; exact .drop (hdead.1 hd) (ih hc')
      · rename_i hd; exact .keep (fun h => hd (hdead.2 h)) (ih hc')
  exact key _ ⟨b, List.mem_of_getElem? hb, ⟨[], rfl⟩, rfl⟩

/-! ### Example -/

/-- A loop: the local 0 is set before the loop, overwritten, read and handed to the world on every turn. -/
def exampleBody : Body :=
  [ { ops := [⟨some 0, .alloca 0, []⟩, ⟨none, .store, [.constant (.other 1), .register 0]⟩], term := .goto 1 },
    { ops := [⟨none, .checkFuel, []⟩, ⟨none, .store, [.constant (.other 2), .register 0]⟩, ⟨some 1, .load, [.register 0]⟩,
        ⟨some 2, .compareEqual, [.register 1, .constant (.other 2)]⟩, ⟨none, .drop 0, [.register 1, .register 1]⟩],
      term := .condBr (.register 2) 1 2 },
    { ops := [], term := .ret } ]

theorem exampleBody_valid : Valid exampleBody where
  inRange := by
    intro b hb t ht
    simp only [exampleBody, List.mem_cons, List.not_mem_nil, or_false] at hb
    rcases hb with rfl | rfl | rfl <;> simp [Term.successors] at ht <;> simp [exampleBody] <;> omega
  single := by
    refine ⟨by decide, ?_⟩
    intro b hb op n e h
    simp only [exampleBody, List.mem_cons, List.not_mem_nil, or_false] at hb
    rcases hb with rfl | rfl | rfl <;> cases h
  stores := by
    intro b hb op hop hk
    simp only [exampleBody, List.mem_cons, List.not_mem_nil, or_false] at hb
    rcases hb with rfl | rfl | rfl <;> simp only [List.mem_cons, List.not_mem_nil, or_false] at hop
    · rcases hop with rfl | rfl
      · cases hk
      · exact ⟨_, _, rfl, fun _ _ _ _ h => by cases h⟩
    · rcases hop with rfl | rfl | rfl | rfl | rfl
      · cases hk
      · exact ⟨_, _, rfl, fun _ _ _ _ h => by cases h⟩
      all_goals cases hk

/-- The loop runs until the fuel is used up. -/
example : Ends demo exampleBody [] (.halted [2, 2, 2, 2, 2, 2, 2, 2, 2, 2]) := ⟨60, by rfl⟩

example : Safe demo exampleBody [] := by
  rintro ⟨n, hn⟩
  have h : run demo exampleBody 60 (start exampleBody []) = .done (.halted [2, 2, 2, 2, 2, 2, 2, 2, 2, 2]) := by rfl
  have h1 := run_add (W := demo) (f := exampleBody) n 60 (start exampleBody [])
  have h2 := run_add (W := demo) (f := exampleBody) 60 n (start exampleBody [])
  rw [hn, run_done] at h1
  rw [h, run_done, Nat.add_comm 60 n, h1] at h2
  cases h2

/-- The first store is useless. -/
example : Useless (fun _ => true) exampleBody ⟨none, .store, [.constant (.other 1), .register 0]⟩ [] (.goto 1) := by
  refine ⟨rfl, ?_, 0, rfl, ⟨⟨_, List.mem_cons_self, _, List.mem_cons_self, rfl, 0, rfl, rfl⟩, ?_⟩, ?_⟩
  · rintro v hv ⟨r, rfl, _⟩; cases hv
  · intro b hb
    simp only [exampleBody, List.mem_cons, List.not_mem_nil, or_false] at hb
    rcases hb with rfl | rfl | rfl <;> refine ⟨by decide, ?_⟩ <;> intro op hop <;>
      simp only [List.mem_cons, List.not_mem_nil, or_false] at hop
    · rcases hop with rfl | rfl <;> intro i hi
      · simp at hi
      · left
        rcases i with _ | _ | i <;> simp at hi ⊢; rfl
    · rcases hop with rfl | rfl | rfl | rfl | rfl <;> intro i hi <;>
        rcases i with _ | _ | i <;> simp [Op.writeIndex, Op.readsWhole] at hi ⊢
  · intro h
    cases h with
    | jump h1 h2 h3 =>
      simp only [Term.successors, List.mem_singleton] at h1
      subst h1
      cases h2
      cases h3 with
      | here h _ => simp at h
      | later _ h => cases h
      | skip _ h =>
        cases h with
        | @here _ _ _ _ i h h' => simp [Op.readsWhole] at h'
        | later h h' => simp [Op.writeIndex] at h'; subst h'; simp [Op.writeIndex] at h
        | skip h => cases h

end Ferlium.DeadStore
