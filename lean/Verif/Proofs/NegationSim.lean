import Verif.Proofs.NegationWalk
import Verif.Proofs.BranchForwardSim

/-! Removing negations preserves behaviour: the invariant and the simulation. -/
namespace Ferlium.Mir

variable {V σ : Type} {W : World V σ} {s s1 : St V σ}

/-! ### Values which are not owned stay where they are -/

theorem exposeOne_value {v : Value} {q : Nat} {x : V} (h : s.env q = some (.value x false)) :
    (exposeOne W s v).env q = some (.value x false) := by
  unfold exposeOne
  split
  · rename_i r
    split
    · rename_i c hc
      have : q ≠ r := fun e => by rw [e, hc] at h; cases h
      simpa [Function.update_of_ne this] using h
    · exact h
  · exact h

theorem exposeFrom_value {direct : Nat → Bool} {q : Nat} {x : V} (vs : List Value) : ∀ (i : Nat) (s : St V σ),
    s.env q = some (.value x false) → (exposeFrom W direct i vs s).env q = some (.value x false) := by
  induction vs with
  | nil => intro i s h; exact h
  | cons v vs ih =>
    intro i s h
    unfold exposeFrom
    apply ih
    split
    · exact h
    · exact exposeOne_value h

theorem writeCell_value {v : Option Value} {c : Option V} {q : Nat} {x : V} (h : s.env q = some (.value x false)) :
    (writeCell s v c).env q = some (.value x false) := by
  unfold writeCell
  split
  · rename_i r
    split
    · rename_i c hc
      have : q ≠ r := fun e => by rw [e, hc] at h; cases h
      simpa [St.set, Function.update_of_ne this] using h
    · exact h
  · exact h

theorem consumeSource_value {v : Option Value} {q : Nat} {x : V} (h : s.env q = some (.value x false)) :
    (consumeSource W s v).env q = some (.value x false) := by
  unfold consumeSource
  split
  · rename_i r
    split
    · rename_i c hc
      have : q ≠ r := fun e => by rw [e, hc] at h; cases h
      simpa [Function.update_of_ne this] using h
    · exact h
  · exact h

/-- The states an operation continues with. -/
def Step.Cont : Step V σ → St V σ → Prop
  | .ok s, s1 => s1 = s
  | .error s, s1 => s1 = s
  | _, _ => False

theorem execOp_value {direct : Nat → Bool} {op : Op} {q : Nat} {x : V} (h : s.env q = some (.value x false))
    (hr : op.result ≠ some q) (he : (execOp W direct op s).Cont s1) : s1.env q = some (.value x false) := by
  have h1 := exposeFrom_value (W := W) (direct := direct) op.operands 0 s h
  unfold execOp at he
  simp only [] at he
  split at he
  · exact he.elim
  rename_i args _
  generalize exposeFrom W direct 0 op.operands s = s2 at h1 he
  have hres : ∀ v, (bindResult op v s2).env q = some (.value x false) := fun v => by rw [bindResult_frame hr]; exact h1
  unfold execArgs at he
  split at he
  · cases he; exact hres _
  · exact he.elim
  · split at he
    · cases he; exact hres _
    · exact he.elim
  · split at he
    · cases he; exact hres _
    · exact he.elim
  · exact he.elim
  · cases he; exact writeCell_value (consumeSource_value h1)
  · unfold worldOp at he
    split at he
    · rename_i w _ _ _
      cases he
      rw [bindOut_frame hr]
      have h3 : (applyMove op { s2 with world := w }).env q = some (.value x false) := by
        unfold applyMove
        split
        · exact writeCell_value (s := { s2 with world := w }) h1
        · exact h1
      unfold applyWrite
      split
      · exact writeCell_value h3
      · exact h3
    · cases he; exact h1
    · exact he.elim

/-- Registers an operation does not mention, also if it fails. -/
theorem execOp_frame' {direct : Nat → Bool} {op : Op} {q : Nat} (h : Value.register q ∉ op.operands)
    (hr : op.result ≠ some q) (he : (execOp W direct op s).Cont s1) : s1.env q = s.env q := by
  cases hx : execOp W direct op s with
  | ok s2 => rw [hx] at he; cases he; exact execOp_frame h hr hx
  | error s2 =>
    rw [hx] at he; cases he
    have h1 := exposeFrom_frame (W := W) (direct := direct) op.operands 0 s h
    unfold execOp at hx
    simp only [] at hx
    split at hx
    · cases hx
    rename_i args _
    generalize exposeFrom W direct 0 op.operands s = s2 at h1 hx
    unfold execArgs at hx
    repeat' split at hx
    all_goals first
      | cases hx
      | (unfold worldOp at hx; split at hx <;> cases hx; exact h1)
  | halt w => rw [hx] at he; exact he.elim
  | stuck => rw [hx] at he; exact he.elim

/-- A cell which is read as a whole stays as it is. -/
theorem read_keeps {op : Op} {q : Nat} {c : Option V} (h : s.env q = some (.cell c)) (hk : op.kind = .load ∨ op.kind = .compareEqual)
    (hops : op.operands = [.register q] ∨ ∃ l, op.operands = [.register q, .pattern l])
    (hr : op.result ≠ some q) (he : execOp W op.direct op s = .ok s1) : s1.env q = some (.cell c) := by
  have h1 : exposeFrom W op.direct 0 op.operands s = s := by
    rcases hops with ho | ⟨l, ho⟩ <;> rcases hk with hk | hk <;> rw [ho] <;>
      simp [exposeFrom, Op.direct, Op.writeIndex, Op.readsWhole, hk, exposeOne]
  unfold execOp at he
  rw [h1] at he
  simp only [] at he
  have hres : ∀ v, (bindResult op v s).env q = some (.cell c) := fun v => by rw [bindResult_frame hr]; exact h
  split at he
  · cases he
  unfold execArgs at he
  split at he
  · cases he; exact hres _
  · cases he
  · split at he
    · cases he; exact hres _
    · cases he
  · split at he
    · cases he; exact hres _
    · cases he
  · cases he
  · rcases hk with hk | hk <;> simp_all
  · unfold worldOp at he
    split at he
    · cases he
      rw [bindOut_frame hr]
      rcases hk with hk | hk <;> simp [applyWrite, applyMove, Op.writeIndex, hk, h]
    · cases he
    · cases he

/-- Storing a value into a local. -/
theorem store_value {op : Op} {x c : Nat} (hk : op.kind = .store) (ho : op.operands = [.register x, .register c])
    (hx : s.env x = none ∨ ∃ v, s.env x = some (.value v false)) (hc : s.env c = none ∨ ∃ v, s.env c = some (.cell v))
    (he : execOp W op.direct op s = .ok s1) :
    ∃ v, s1.env c = some (.cell (some v)) ∧ s1.env x = some (.value v false) := by
  have h1 : exposeFrom W op.direct 0 op.operands s = s := by
    rw [ho]
    rcases hx with hx | ⟨v, hx⟩ <;> simp [exposeFrom, Op.direct, Op.writeIndex, Op.readsWhole, hk, exposeOne, hx]
  unfold execOp at he
  rw [h1, ho] at he
  rcases hx with hx | ⟨v, hx⟩
  · simp [argsFrom, argOf, hx] at he
  rcases hc with hc | ⟨v', hc⟩
  · simp [argsFrom, argOf, hx, hc] at he
  have hne : x ≠ c := fun e => by rw [e, hc] at hx; cases hx
  simp [argsFrom, argOf, hx, hc, Op.readsWhole, hk, execArgs, ho, consumeSource, writeCell] at he
  refine ⟨v, ?_, ?_⟩
  · rw [← he]; simp [St.set]
  · rw [← he]; simp [St.set, Function.update_of_ne hne, hx]

/-- Loading from a local. -/
theorem load_cell {op : Op} {y c : Nat} {v : V} (hk : op.kind = .load) (ho : op.operands = [.register c])
    (hr : op.result = some y) (hc : s.env c = some (.cell (some v))) :
    execOp W op.direct op s = .ok (s.set y (some (.value v false))) := by
  unfold execOp
  have he : exposeFrom W op.direct 0 op.operands s = s := by
    rw [ho]; simp [exposeFrom, Op.direct, Op.writeIndex, Op.readsWhole, hk]
  simp only [he]
  rw [ho]
  simp [argsFrom, argOf, hc, Op.readsWhole, hk, execArgs, bindResult, hr, Op.owned]

/-- What a comparison with a boolean literal does, given the value compared. -/
def compareWith (W : World V σ) (res : Option Nat) (v : V) (b : Bool) (s : St V σ) : Step V σ :=
  match W.compare v (W.bool b) s.world with
  | some x => .ok (bindResult ⟨res, .compareEqual, []⟩ (some x) s)
  | none => .stuck

theorem compare_exec {op : Op} {v l : Value} {x : V} {b : Bool} (hk : op.kind = .compareEqual) (ho : op.operands = [v, l])
    (hl : Peephole.boolValue l = some b)
    (hv : argOf W true s v = some (.value x) ∨ argOf W true s v = some (.content (some x))) :
    execOp W op.direct op s = compareWith W op.result x b s := by
  have hp := Peephole.boolValue_plain (W := W) hl s
  unfold execOp
  have he : exposeFrom W op.direct 0 op.operands s = s := by
    rw [ho]
    simp only [exposeFrom, Op.direct, Op.writeIndex, Op.readsWhole, hk]
    simp [plain_expose hp]
  have h0 : op.readsWhole 0 = true := by simp [Op.readsWhole, hk]
  simp only [he]
  rw [ho]
  unfold compareWith
  have hb : ∀ x, bindResult op (some x) s = bindResult ⟨op.result, .compareEqual, []⟩ (some x) s := by
    intro x
    unfold bindResult
    have : op.owned = false := by simp [Op.owned, hk]
    rw [this]
    rfl
  rcases hv with hv | hv
  · simp only [argsFrom, plain_arg hp, h0, hv]
    simp only [execArgs, hk, hb]
    rfl
  · simp only [argsFrom, plain_arg hp, h0, hv]
    simp only [execArgs, hk, hb]
    rfl

end Ferlium.Mir
