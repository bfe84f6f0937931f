import Verif.Proofs.RelationsDemo

/-
C56: a bounds check the optimiser removes would have passed.

`resolve index len` is what the check computes (`none` is the panic); a removed check is replaced by
the raw index, or by `len + index` for an index known to be negative.
-/

namespace Ferlium.Relations

/-- Whenever the analysis finishes and an execution reaches a check it decides to remove, the check
would have succeeded there with the very offset the replacement uses.

Partial: only for bodies which read whole slots and parts of slots they never rewrite
(`ReadsKept`), give no parameter to an unknown callee by mutable reference (`ParamsKept`), for
executions whose comparisons do not wrap around (`Calm`), and not for the least integer as an index
into an empty array. The theorems below show that none of these can be dropped. Range loops are not
modelled. -/
theorem C56_removed_check_would_pass_partial {rank : Symbol → Nat} {f : Body} {r : Run}
    (hr : Finished rank f r) (hk : ParamsKept f) (hE : ReadsKept f) (hea : EdgesApart f)
    {m₀ m : Mem} {b i : Nat} {blk : Block} {op : Op} (reach : Reach f Calm m₀ b i m)
    (hb : f.blocks[b]? = some blk) (hop : blk.allOps[i]? = some op) {idx len : W}
    (ho : checkOperands m op = some (idx, len))
    (hj : ∀ c args res, op = .call c args res → ∀ p ∈ callReads c args, m.cell p ≠ .junk)
    (hl : 0 ≤ len.toInt) (hmin : idx.toInt = -2 ^ 63 → 0 < len.toInt) :
    ∃ st, pointState rank f r b i = some st ∧
      (decision rank f st op = some .nonNegative → resolve idx len = some idx) ∧
      (decision rank f st op = some .negative →
        idx.toInt < 0 ∧ resolve idx len = some (len + idx)) := by
  obtain ⟨_, ρ, st, hst, hI⟩ := reach_inv (finished_solves hr) hk (fresh_of_reads hr hE) hea reach
    (List.getElem?_eq_some_iff.1 hb).1
  exact ⟨st, hst, decision_sound hk hI ho hj hl hmin⟩

/-- The same under the weaker condition on what the states of the analysis name: no operation leaves
a part of what it wrote named by its contents on entry. -/
theorem C56_removed_check_would_pass_fresh_partial {rank : Symbol → Nat} {f : Body} {r : Run}
    (hr : Finished rank f r) (hk : ParamsKept f) (hfr : FreshFields rank f r) (hea : EdgesApart f)
    {m₀ m : Mem} {b i : Nat} {blk : Block} {op : Op} (reach : Reach f Calm m₀ b i m)
    (hb : f.blocks[b]? = some blk) (hop : blk.allOps[i]? = some op) {idx len : W}
    (ho : checkOperands m op = some (idx, len))
    (hj : ∀ c args res, op = .call c args res → ∀ p ∈ callReads c args, m.cell p ≠ .junk)
    (hl : 0 ≤ len.toInt) (hmin : idx.toInt = -2 ^ 63 → 0 < len.toInt) :
    ∃ st, pointState rank f r b i = some st ∧
      (decision rank f st op = some .nonNegative → resolve idx len = some idx) ∧
      (decision rank f st op = some .negative →
        idx.toInt < 0 ∧ resolve idx len = some (len + idx)) := by
  obtain ⟨_, ρ, st, hst, hI⟩ := reach_inv (finished_solves hr) hk hfr hea reach
    (List.getElem?_eq_some_iff.1 hb).1
  exact ⟨st, hst, decision_sound hk hI ho hj hl hmin⟩

/-! ### Concrete bodies -/

/-- The slot of a local. -/
def loc (n : Nat) : Place := ⟨.alloca n, []⟩

/-- The slot of a parameter. -/
def par (n : Nat) : Place := ⟨.param n, []⟩

/-- An argument passed by value. -/
def byVal (p : Place) : Place × Bool := (p, false)

/-- The order in which the symbols of the bodies below are met. -/
def demoRank : Symbol → Nat
  | .stored ⟨.param n, _⟩ _ => n
  | .stored ⟨.alloca n, _⟩ _ => n + 10
  | .reg r => r + 100

/-- Tests whether the comparison an operation makes is far from wrapping around. -/
def calmB (op : Op) (m : Mem) : Bool :=
  match op with
  | .call .intCmp [a, b] _ =>
    decide (-2 ^ 63 < (m.cell a.1).w.toInt - (m.cell b.1).w.toInt ∧
      (m.cell a.1).w.toInt - (m.cell b.1).w.toInt < 2 ^ 63)
  | _ => true

theorem calm_of (op : Op) (m : Mem) (h : calmB op m = true) : Calm op m := by
  unfold calmB at h
  unfold Calm
  split
  · simpa [Apart] using h
  · trivial

/-- `if i >= 0 and i < len(a) { a[i] }` for two parameters `a` and `i`. -/
def guarded : Body where
  blocks := [
    ⟨[.alloca 0, .storeConst 0 (loc 0), .alloca 1,
      .call .intCmp [byVal (par 1), byVal (loc 0)] (loc 1),
      .compEq 0 (.place (loc 1)) "Less"], .condBr 0 3 1⟩,
    ⟨[.alloca 2, .call .arrayLen [byVal (par 0)] (loc 2), .alloca 3,
      .call .intCmp [byVal (par 1), byVal (loc 2)] (loc 3),
      .compEq 1 (.place (loc 3)) "Less"], .condBr 1 2 3⟩,
    ⟨[.alloca 4], .invoke (.call .arrayIndex [byVal (par 0), byVal (par 1)] (loc 4)) 4 5⟩,
    ⟨[], .exit⟩, ⟨[], .exit⟩, ⟨[], .exit⟩]
  arrays := [.param 0]

/-- An array of three elements and the given index. -/
def argsMem (i len : W) : Mem where
  cell p := if p = par 1 then .int i else if p = (par 0).field lenField then .int len else .junk
  reg _ := .junk

/-- The access of the bodies below. -/
def access : Op := .call .arrayIndex [byVal (par 0), byVal (par 1)] (loc 4)

/-- The conditions of the theorem are met by the guarded access, its check is removed, and an
execution reaches it. -/
example : ∃ (st : State) (m : Mem),
    Finished demoRank guarded (runTo demoRank guarded 6) ∧ ParamsKept guarded ∧
    ReadsKept guarded ∧ EdgesApart guarded ∧ Reach guarded Calm (argsMem 1 3) 2 1 m ∧
    pointState demoRank guarded (runTo demoRank guarded 6) 2 1 = some st ∧
    decision demoRank guarded st access = some .nonNegative ∧
    checkOperands m access = some (1, 3) :=
  ⟨stateAt demoRank guarded 2 1, memAfter (fun _ => []) guarded calmB 13 (argsMem 1 3),
    forward_finished (by decide), paramsKept_of (by decide), readsKept_of (by decide),
    edgesApart_of (by decide), machine_reach calm_of (by decide), stateAt_eq (by decide),
    by decide, by decide⟩

/-! ### Removed checks which would have failed -/

/-- Some execution reaches a check the analysis removes and which would have panicked: its operands
are initialised, the length is not negative, yet the index does not resolve. -/
def RemovesFailingCheck (ok : Op → Mem → Prop) (f : Body) (idx len : W) : Prop :=
  ∃ (rank : Symbol → Nat) (r : Run) (m₀ m : Mem) (b i : Nat) (blk : Block) (op : Op) (st : State),
    Finished rank f r ∧ Reach f ok m₀ b i m ∧ f.blocks[b]? = some blk ∧
    blk.allOps[i]? = some op ∧ pointState rank f r b i = some st ∧
    decision rank f st op = some .nonNegative ∧ checkOperands m op = some (idx, len) ∧
    (∀ c args res, op = .call c args res → ∀ p ∈ callReads c args, m.cell p ≠ .junk) ∧
    0 ≤ len.toInt ∧ resolve idx len = none

theorem removesFailing_of {ok : Op → Mem → Prop} {okB : Op → Mem → Bool}
    (hok : ∀ op m, okB op m = true → ok op m) {f : Body} {idx len : W}
    (ext : Op → List (Place × Val)) (k : Nat) (m₀ : Mem) (b i : Nat) (blk : Block) (op : Op)
    (h1 : forwardB f = true)
    (h2 : (execute ext f okB k (0, 0, m₀)).map (fun s => (s.1, s.2.1)) = some (b, i))
    (h3 : f.blocks[b]? = some blk) (h4 : blk.allOps[i]? = some op)
    (h5 : (pointState demoRank f (runTo demoRank f f.blocks.length) b i).isSome = true)
    (h6 : decision demoRank f (stateAt demoRank f b i) op = some .nonNegative)
    (h7 : checkOperands (memAfter ext f okB k m₀) op = some (idx, len))
    (h8 : (match op with
      | .call c args _ => (callReads c args).all fun p => (memAfter ext f okB k m₀).cell p != .junk
      | _ => true) = true)
    (h9 : 0 ≤ len.toInt) (h10 : resolve idx len = none) : RemovesFailingCheck ok f idx len := by
  refine ⟨demoRank, _, m₀, _, b, i, blk, op, _, forward_finished h1, machine_reach hok h2, h3, h4,
    stateAt_eq h5, h6, h7, ?_, h9, h10⟩
  rintro c args res rfl p hp
  simp only [List.all_eq_true, bne_iff_ne] at h8
  exact h8 p hp

/-- `if i >= 0 and i + 1 < len(a) + 1 { a[i] }` for two parameters `a` and `i`. -/
def wrapped : Body where
  blocks := [
    ⟨[.alloca 0, .storeConst 0 (loc 0), .alloca 1,
      .call .intCmp [byVal (par 1), byVal (loc 0)] (loc 1),
      .compEq 0 (.place (loc 1)) "Less"], .condBr 0 3 1⟩,
    ⟨[.alloca 2, .storeConst 1 (loc 2),
      .alloca 3, .call .intAdd [byVal (par 1), byVal (loc 2)] (loc 3),
      .alloca 5, .call .arrayLen [byVal (par 0)] (loc 5),
      .alloca 6, .call .intAdd [byVal (loc 5), byVal (loc 2)] (loc 6),
      .alloca 7, .call .intCmp [byVal (loc 3), byVal (loc 6)] (loc 7),
      .compEq 1 (.place (loc 7)) "Less"], .condBr 1 2 3⟩,
    ⟨[.alloca 4], .invoke access 4 5⟩,
    ⟨[], .exit⟩, ⟨[], .exit⟩, ⟨[], .exit⟩]
  arrays := [.param 0]

/-- A comparison which wraps around: `i + 1 < len(a) + 1` holds of the largest integer, and its
difference is that of `i < len(a)`. Everything else the theorem asks for is met. -/
theorem C56_wrapped_comparison_violated :
    RemovesFailingCheck (fun _ _ => True) wrapped (BitVec.intMax 64) 3 ∧
    ParamsKept wrapped ∧ ReadsKept wrapped ∧ EdgesApart wrapped :=
  ⟨removesFailing_of (okB := fun _ _ => true) (fun _ _ _ => trivial) (fun _ => []) 19
    (argsMem (BitVec.intMax 64) 3) 2 1 ⟨[.alloca 4], .invoke access 4 5⟩ access
    (by decide) (by decide) rfl rfl (by decide) (by decide) (by decide) (by decide) (by decide)
    (by decide), paramsKept_of (by decide), readsKept_of (by decide), edgesApart_of (by decide)⟩

/-- `let a = []; a[i]` where `i` is the least integer. -/
def leastIndex : Body where
  blocks := [
    ⟨[.alloca 0, .storeConst (BitVec.intMin 64) (loc 0), .alloca 1, .buildArray 0 (loc 1),
      .alloca 2], .invoke (.call .arrayIndex [byVal (loc 1), byVal (loc 0)] (loc 2)) 1 2⟩,
    ⟨[], .exit⟩, ⟨[], .exit⟩]
  arrays := [.alloca 1]

/-- The least integer passes for an index of an empty array: `0 - i` wraps around to `i`, which is
negative, and so is `i - 0`. No comparison of the program wraps around. -/
theorem C56_least_index_violated :
    RemovesFailingCheck Calm leastIndex (BitVec.intMin 64) 0 ∧
    ParamsKept leastIndex ∧ EdgesApart leastIndex :=
  ⟨removesFailing_of (okB := calmB) calm_of (fun _ => []) 5
    (argsMem 0 0) 0 5 _ (.call .arrayIndex [byVal (loc 1), byVal (loc 0)] (loc 2))
    (by decide) (by decide) rfl rfl (by decide) (by decide) (by decide) (by decide) (by decide)
    (by decide), paramsKept_of (by decide), edgesApart_of (by decide)⟩

/-- `let mut a = g(); let n = len(a); a = h(); if i >= 0 and i < n { a[i] }` for a parameter `i`:
the assignment drops the old array and moves the new one in. -/
def reassigned : Body where
  blocks := [
    ⟨[.alloca 0, .call (.other false) [] (loc 0),
      .alloca 1, .call .arrayLen [byVal (loc 0)] (loc 1),
      .alloca 2, .call (.other false) [] (loc 2), .drop (loc 0), .move (loc 2) (loc 0),
      .alloca 3, .storeConst 0 (loc 3), .alloca 5,
      .call .intCmp [byVal (par 1), byVal (loc 3)] (loc 5),
      .compEq 0 (.place (loc 5)) "Less"], .condBr 0 3 1⟩,
    ⟨[.alloca 6, .call .intCmp [byVal (par 1), byVal (loc 1)] (loc 6),
      .compEq 1 (.place (loc 6)) "Less"], .condBr 1 2 3⟩,
    ⟨[.alloca 4], .invoke (.call .arrayIndex [byVal (loc 0), byVal (par 1)] (loc 4)) 4 5⟩,
    ⟨[], .exit⟩, ⟨[], .exit⟩, ⟨[], .exit⟩]
  arrays := [.alloca 0]

/-- The arrays the two functions return: the first has five elements, the second one. -/
def twoArrays (op : Op) : List (Place × Val) :=
  match op with
  | .call _ _ result =>
    [(result, .int 0), (result.field lenField, .int (if result = loc 0 then 5 else 1))]
  | _ => []

/-- The length of an array survives the array: after `a = h()` the length is named by the same
symbol as before, so that what is known of the old one is used for the new one. No comparison wraps
around. -/
theorem C56_reassigned_array_violated :
    RemovesFailingCheck Calm reassigned 3 1 ∧ ParamsKept reassigned ∧ EdgesApart reassigned :=
  ⟨removesFailing_of (okB := calmB) calm_of twoArrays 19
    (argsMem 3 0) 2 1 ⟨[.alloca 4], _⟩
    (.call .arrayIndex [byVal (loc 0), byVal (par 1)] (loc 4))
    (by decide) (by decide) rfl rfl (by decide) (by decide) (by decide) (by decide) (by decide)
    (by decide), paramsKept_of (by decide), edgesApart_of (by decide)⟩

/-- `if i >= 0 and i < len(a) { bump(i); a[i] }` for parameters `a` and `i`, the latter received by
mutable reference and passed on. -/
def bumped : Body where
  blocks := [
    ⟨[.alloca 0, .storeConst 0 (loc 0), .alloca 1,
      .call .intCmp [byVal (par 1), byVal (loc 0)] (loc 1),
      .compEq 0 (.place (loc 1)) "Less"], .condBr 0 3 1⟩,
    ⟨[.alloca 2, .call .arrayLen [byVal (par 0)] (loc 2), .alloca 3,
      .call .intCmp [byVal (par 1), byVal (loc 2)] (loc 3),
      .compEq 1 (.place (loc 3)) "Less"], .condBr 1 2 3⟩,
    ⟨[.alloca 5, .call (.other false) [(par 1, true)] (loc 5), .alloca 4], .invoke access 4 5⟩,
    ⟨[], .exit⟩, ⟨[], .exit⟩, ⟨[], .exit⟩]
  arrays := [.param 0]

/-- A parameter passed on by mutable reference keeps the symbol of its value on entry, so that what
is known of the old value is used for the new one. No comparison wraps around. -/
theorem C56_passed_on_parameter_violated :
    RemovesFailingCheck Calm bumped 7 3 ∧ ReadsKept bumped ∧ EdgesApart bumped :=
  ⟨removesFailing_of (okB := calmB) calm_of (fun _ => [(par 1, .int 7)]) 15
    (argsMem 1 3) 2 3 ⟨[.alloca 5, .call (.other false) [(par 1, true)] (loc 5), .alloca 4],
      .invoke access 4 5⟩ access
    (by decide) (by decide) rfl rfl (by decide) (by decide) (by decide) (by decide) (by decide)
    (by decide), readsKept_of (by decide), edgesApart_of (by decide)⟩

end Ferlium.Relations
