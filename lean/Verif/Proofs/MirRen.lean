import Verif.Proofs.Mir

/-! Executions of operations in states which agree up to a correspondence between registers. -/
namespace Ferlium.Mir

variable {V σ : Type} {W : World V σ}

/-- A correspondence between registers. -/
structure Corr where
  rel : Nat → Nat → Prop
  inj : ∀ {a b b'}, rel a b → rel a b' → b = b'
  inj' : ∀ {a a' b}, rel a b → rel a' b → a = a'

/-- The correspondence after both sides have defined a register. -/
def Corr.upd (M : Corr) (r r' : Nat) : Corr where
  rel a b := (a = r ∧ b = r') ∨ (a ≠ r ∧ b ≠ r' ∧ M.rel a b)
  inj := by
    rintro a b b' (⟨rfl, rfl⟩ | ⟨h1, h2, h3⟩) (⟨h4, h5⟩ | ⟨h4, h5, h6⟩)
    · exact h5.symm
    · exact absurd rfl h4
    · exact absurd h4 h1
    · exact M.inj h3 h6
  inj' := by
    rintro a a' b (⟨rfl, rfl⟩ | ⟨h1, h2, h3⟩) (⟨h4, h5⟩ | ⟨h4, h5, h6⟩)
    · exact h4.symm
    · exact absurd rfl h5
    · exact absurd h5 h2
    · exact M.inj' h3 h6

/-- The correspondence after an operation with the given results. -/
def Corr.bind (M : Corr) : Option Nat → Option Nat → Corr
  | some r, some r' => M.upd r r'
  | _, _ => M

/-- The identity outside a set. -/
def Corr.off (D : Nat → Prop) : Corr where
  rel a b := a = b ∧ ¬ D a
  inj := by rintro a b b' ⟨rfl, _⟩ ⟨rfl, _⟩; rfl
  inj' := by rintro a a' b ⟨rfl, _⟩ ⟨rfl, _⟩; rfl

/-- The two states agree up to the correspondence. -/
structure Ren (M : Corr) (s s' : St V σ) : Prop where
  world : s.world = s'.world
  env : ∀ r r', M.rel r r' → s.env r = s'.env r'

/-- Corresponding operands. -/
inductive ValRel (M : Corr) : Value → Value → Prop
  | reg {r r'} : M.rel r r' → ValRel M (.register r) (.register r')
  | same {v} : (∀ r, v ≠ .register r) → ValRel M v v

/-- Corresponding operations. -/
structure OpRel (M : Corr) (op op' : Op) : Prop where
  kind : op.kind = op'.kind
  operands : List.Forall₂ (ValRel M) op.operands op'.operands
  result : op.result.isSome = op'.result.isSome

variable {M : Corr} {s s' : St V σ}

theorem Ren.update (h : Ren M s s') {r r' : Nat} (hr : M.rel r r') (b : Option (Bind V)) (w : σ) :
    Ren M { env := Function.update s.env r b, world := w } { env := Function.update s'.env r' b, world := w } := by
  refine ⟨rfl, fun q q' hq => ?_⟩
  by_cases h1 : q = r
  · subst h1
    have := M.inj hq hr
    subst this
    simp
  · have h2 : q' ≠ r' := fun h2 => h1 (by subst h2; exact M.inj' hq hr)
    simp only [Function.update_of_ne h1, Function.update_of_ne h2]
    exact h.env q q' hq

/-- Bind an optional register. -/
def setOpt (s : St V σ) (r : Option Nat) (b : Option (Bind V)) : St V σ :=
  match r with
  | some q => s.set q b
  | none => s

theorem Ren.bind (h : Ren M s s') {r r' : Option Nat} (hr : r.isSome = r'.isSome) (b : Option (Bind V)) :
    Ren (M.bind r r') (setOpt s r b) (setOpt s' r' b) := by
  cases r with
  | none =>
    cases r' with
    | none => exact h
    | some _ => cases hr
  | some q =>
    cases r' with
    | none => cases hr
    | some q' =>
      refine ⟨h.world, ?_⟩
      rintro a a' (⟨rfl, rfl⟩ | ⟨h1, h2, h3⟩)
      · simp [setOpt, St.set]
      · simp only [setOpt, St.set, Function.update_of_ne h1, Function.update_of_ne h2]
        exact h.env a a' h3

theorem bindResult_eq (op : Op) (v : Option V) (s : St V σ) :
    bindResult op v s = setOpt s op.result (v.map fun v => .value v op.owned) := by
  unfold bindResult setOpt
  cases op.result <;> cases v <;> rfl

theorem Ren.withWorld (h : Ren M s s') (w : σ) : Ren M { s with world := w } { s' with world := w } := ⟨rfl, h.env⟩

theorem ren_exposeOne (h : Ren M s s') {v v' : Value} (hv : ValRel M v v') :
    Ren M (exposeOne W s v) (exposeOne W s' v') := by
  cases hv with
  | reg hr =>
    unfold exposeOne
    simp only [← h.env _ _ hr, ← h.world]
    split
    · exact h.update hr _ _
    · exact h
  | same hv =>
    unfold exposeOne
    cases v with
    | register r => exact absurd rfl (hv r)
    | _ => exact h

theorem ren_exposeFrom {direct : Nat → Bool} {vs vs' : List Value} (hv : List.Forall₂ (ValRel M) vs vs') :
    ∀ (i : Nat) {s s' : St V σ}, Ren M s s' → Ren M (exposeFrom W direct i vs s) (exposeFrom W direct i vs' s') := by
  induction hv with
  | nil => intro i s s' h; exact h
  | cons h1 _ ih =>
    intro i s s' h
    simp only [exposeFrom]
    apply ih
    split
    · exact h
    · exact ren_exposeOne h h1

theorem ren_argOf {reads : Bool} (h : Ren M s s') {v v' : Value} (hv : ValRel M v v') :
    argOf W reads s v = argOf W reads s' v' := by
  cases hv with
  | reg hr => simp only [argOf]; rw [h.env _ _ hr]
  | same hv =>
    cases v with
    | register r => exact absurd rfl (hv r)
    | _ => rfl

theorem ren_argsFrom {reads : Nat → Bool} {vs vs' : List Value} (h : Ren M s s')
    (hv : List.Forall₂ (ValRel M) vs vs') : ∀ (i : Nat), argsFrom W reads s i vs = argsFrom W reads s' i vs' := by
  induction hv with
  | nil => intro i; rfl
  | cons h1 _ ih =>
    intro i
    simp only [argsFrom]
    rw [ren_argOf h h1, ih (i + 1)]

/-- Corresponding optional operands. -/
def OptRel (M : Corr) (v v' : Option Value) : Prop := Option.Rel (ValRel M) v v'

theorem optRel_get {vs vs' : List Value} (hv : List.Forall₂ (ValRel M) vs vs') (i : Nat) :
    OptRel M vs[i]? vs'[i]? := by
  induction hv generalizing i with
  | nil => simp only [List.getElem?_nil]; exact .none
  | cons h _ ih =>
    cases i with
    | zero => exact .some h
    | succ i => simpa using ih i

theorem ren_writeCell (h : Ren M s s') {v v' : Option Value} (hv : OptRel M v v') (c : Option V) :
    Ren M (writeCell s v c) (writeCell s' v' c) := by
  cases hv with
  | none => exact h
  | some hv =>
    cases hv with
    | reg hr =>
      unfold writeCell
      simp only [← h.env _ _ hr]
      split
      · have := h.update hr (some (.cell c)) s.world
        simp only [St.set, ← h.world]
        exact this
      · exact h
    | same hv =>
      unfold writeCell
      split
      · rename_i r hr; cases hr; exact absurd rfl (hv r)
      · exact h

theorem ren_consumeSource (h : Ren M s s') {v v' : Option Value} (hv : OptRel M v v') :
    Ren M (consumeSource W s v) (consumeSource W s' v') := by
  cases hv with
  | none => exact h
  | some hv =>
    cases hv with
    | reg hr =>
      unfold consumeSource
      simp only [← h.env _ _ hr, ← h.world]
      split
      · exact h.update hr _ _
      · exact h
    | same hv =>
      unfold consumeSource
      split
      · rename_i r hr; cases hr; exact absurd rfl (hv r)
      · exact h

variable {op op' : Op}

theorem OpRel.owned (h : OpRel M op op') : op.owned = op'.owned := by
  unfold Op.owned
  rw [h.kind, h.operands.length_eq]

theorem OpRel.writeIndex (h : OpRel M op op') : op.writeIndex = op'.writeIndex := by
  unfold Op.writeIndex callResultIndex
  rw [h.kind, h.operands.length_eq]

theorem OpRel.readsWhole (h : OpRel M op op') : op.readsWhole = op'.readsWhole := by
  funext i
  unfold Op.readsWhole
  rw [h.kind]

theorem OpRel.direct (h : OpRel M op op') : op.direct = op'.direct := by
  funext i
  unfold Op.direct
  rw [h.writeIndex, h.readsWhole]

theorem ren_bindResult (h : Ren M s s') (ho : OpRel M op op') (v : Option V) :
    Ren (M.bind op.result op'.result) (bindResult op v s) (bindResult op' v s') := by
  rw [bindResult_eq, bindResult_eq, ← ho.owned]
  exact h.bind ho.result _

theorem ren_bindOut (h : Ren M s s') (ho : OpRel M op op') (v : Option V) :
    Ren (M.bind op.result op'.result) (bindOut op v s) (bindOut op' v s') := by
  unfold bindOut
  rw [← ho.kind]
  split
  · exact h.bind ho.result (some (.cell none))
  · exact ren_bindResult h ho v

theorem ren_worldOp (h : Ren M s s') (ho : OpRel M op op') (args : List (Arg V)) :
    StepRel (Ren (M.bind op.result op'.result)) (Ren M) (worldOp W op args s) (worldOp W op' args s') := by
  unfold worldOp
  rw [← h.world, ← ho.kind]
  cases W.exec op.kind args s.world with
  | ok w result written =>
    refine .ok (ren_bindOut ?_ ho _)
    have h1 : Ren M (applyMove op { s with world := w }) (applyMove op' { s' with world := w }) := by
      unfold applyMove
      rw [← ho.kind]
      split
      · exact ren_writeCell (h.withWorld w) (optRel_get ho.operands 0) _
      · exact h.withWorld w
    unfold applyWrite
    rw [← ho.writeIndex]
    split
    · rename_i i _
      exact ren_writeCell h1 (optRel_get ho.operands i) _
    · exact h1
  | error w => exact .error (h.withWorld w)
  | halt w => exact .halt w

theorem ren_execArgs (h : Ren M s s') (ho : OpRel M op op') (hst : op.kind = .store → op.result = none)
    (args : List (Arg V)) :
    StepRel (Ren (M.bind op.result op'.result)) (Ren M) (execArgs W op args s) (execArgs W op' args s') := by
  unfold execArgs
  rw [← h.world, ← ho.kind]
  split
  · exact .ok (ren_bindResult h ho _)
  · exact .stuck
  · split
    · exact .ok (ren_bindResult h ho _)
    · exact .stuck
  · split
    · exact .ok (ren_bindResult h ho _)
    · exact .stuck
  · exact .stuck
  · rename_i hk
    rw [hst hk]
    exact .ok (ren_writeCell (ren_consumeSource h (optRel_get ho.operands 0)) (optRel_get ho.operands 1) _)
  · exact ren_worldOp h ho _

/-- Corresponding operations have corresponding outcomes. -/
theorem ren_execOp {direct : Nat → Bool} (h : Ren M s s') (ho : OpRel M op op')
    (hst : op.kind = .store → op.result = none) :
    StepRel (Ren (M.bind op.result op'.result)) (Ren M) (execOp W direct op s) (execOp W direct op' s') := by
  have h1 := ren_exposeFrom (W := W) (direct := direct) ho.operands 0 h
  unfold execOp
  simp only []
  rw [← ho.readsWhole, ren_argsFrom h1 ho.operands 0]
  split
  · exact .stuck
  · exact ren_execArgs h1 ho hst _

theorem ren_valueOf (h : Ren M s s') {v v' : Value} (hv : ValRel M v v') : valueOf W s v = valueOf W s' v' := by
  unfold valueOf
  rw [ren_argOf h hv]

/-! ### The same operation in states which agree outside a set of unused registers -/

/-- No register of the set is an operand. -/
def Avoids (D : Nat → Prop) (vs : List Value) : Prop := ∀ r, Value.register r ∈ vs → ¬ D r

theorem valRel_off {D : Nat → Prop} {v : Value} (h : ∀ r, v = .register r → ¬ D r) : ValRel (Corr.off D) v v := by
  cases v with
  | register r => exact .reg ⟨rfl, h r rfl⟩
  | _ => exact .same (by simp)

theorem forall₂_off {D : Nat → Prop} {vs : List Value} (h : Avoids D vs) :
    List.Forall₂ (ValRel (Corr.off D)) vs vs := by
  induction vs with
  | nil => exact .nil
  | cons v vs ih =>
    exact .cons (valRel_off fun r hr => h r (by simp [hr])) (ih fun r hr => h r (by simp [hr]))

theorem opRel_off {D : Nat → Prop} {op : Op} (h : Avoids D op.operands) : OpRel (Corr.off D) op op :=
  ⟨rfl, forall₂_off h, rfl⟩

/-- The states agree outside the set. -/
abbrev Off (D : Nat → Prop) (s s' : St V σ) : Prop := Ren (Corr.off D) s s'

theorem off_execOp {D : Nat → Prop} {direct : Nat → Bool} (h : Off D s s') (ha : Avoids D op.operands)
    (hst : op.kind = .store → op.result = none) :
    StepRel (Off D) (Off D) (execOp W direct op s) (execOp W direct op s') := by
  have := ren_execOp (W := W) (direct := direct) h (opRel_off ha) hst
  revert this
  generalize execOp W direct op s = e1
  generalize execOp W direct op s' = e2
  intro h
  cases h with
  | ok h =>
    refine .ok ⟨h.world, ?_⟩
    rintro r _ ⟨rfl, hr⟩
    cases hres : op.result with
    | none => rw [hres] at h; exact h.env r r ⟨rfl, hr⟩
    | some q =>
      rw [hres] at h
      by_cases hq : r = q
      · exact h.env r r (Or.inl ⟨hq, hq⟩)
      · exact h.env r r (Or.inr ⟨hq, hq, rfl, hr⟩)
  | error h => exact .error h
  | halt w => exact .halt w
  | stuck => exact .stuck

theorem Off.refl {D : Nat → Prop} : Off D s s := ⟨rfl, by rintro r _ ⟨rfl, _⟩; rfl⟩

theorem off_set {D : Nat → Prop} (h : Off D s s') {r : Nat} (hr : D r) (b : Option (Bind V)) : Off D s (s'.set r b) := by
  refine ⟨h.world, ?_⟩
  rintro q _ ⟨rfl, hq⟩
  simp only [St.set]
  rw [Function.update_of_ne (fun h : q = r => hq (h ▸ hr))]
  exact h.env q q ⟨rfl, hq⟩

end Ferlium.Mir
