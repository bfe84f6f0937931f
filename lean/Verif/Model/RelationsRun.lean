import Verif.Model.Relations

/-
What a body of the relational analysis does when it runs: the reference for the claims made about
removed bounds checks.  Storage is a map from slots to contents; distinct roots never overlap (the
exclusivity the borrow checker is there for).
-/

namespace Ferlium.Relations

/-- The contents of a slot or of a register. `junk` is what uninitialised storage holds. -/
inductive Val where
  | int (w : W)
  | tag (t : String)
  | bool (b : Bool)
  | junk
  deriving DecidableEq, Repr

/-- The integer in a slot. -/
def Val.w : Val → W
  | .int w => w
  | _ => 0

/-- Storage and registers. -/
structure Mem where
  cell : Place → Val
  reg : Nat → Val

/-- `Ord<int>::cmp` (src/std/prelude, `cmp` on `int`). -/
def compareTag (x y : W) : String :=
  if x.slt y then "Less" else if x = y then "Equal" else "Greater"

/-- `array_resolve_index` (src/std/prelude/array_type.fer:22-37): the offset of a signed index, or
`none` when the call panics. -/
def resolve (index len : W) : Option W :=
  let offset := if index.slt 0 then len + index else index
  if offset.slt 0 || len.sle offset then none else some offset

/-- The two memories differ only within the slots satisfying `p`. -/
def SameExcept (p : Place → Prop) (m m' : Mem) : Prop :=
  ∀ q, ¬p q → m'.cell q = m.cell q

/-- The slots a call may write: its result, what it receives by mutable reference, and whatever
escaped. -/
def CallWrites (f : Body) (args : List (Place × Bool)) (result q : Place) : Prop :=
  result.covers q = true ∨ (∃ a ∈ args, a.2 = true ∧ a.1.covers q = true) ∨ f.escaped q.root = true

/-- The result place is disjoint from the arguments, and no argument is passed by mutable
reference: how the functions of known meaning below are called. -/
def PlainCall (args : List (Place × Bool)) (result : Place) : Prop :=
  ∀ a ∈ args, a.2 = false ∧ result.covers a.1 = false ∧ a.1.covers result = false

/-- The value a call of known meaning computes (src/std/math.rs: `int` arithmetic wraps). -/
def callValue (m : Mem) : Callee → List (Place × Bool) → Option Val
  | .intAdd, [a, b] => some (.int ((m.cell a.1).w + (m.cell b.1).w))
  | .intSub, [a, b] => some (.int ((m.cell a.1).w - (m.cell b.1).w))
  | .intMul, [a, b] => some (.int ((m.cell a.1).w * (m.cell b.1).w))
  | .intNeg, [a] => some (.int (-(m.cell a.1).w))
  | .intFromInt, [a] => some (.int (m.cell a.1).w)
  | .intCmp, [a, b] => some (.tag (compareTag (m.cell a.1).w (m.cell b.1).w))
  | .arrayLen, [a] => some (.int (m.cell (a.1.field lenField)).w)
  | _, _ => none

/-- The slots a call of known meaning reads, all of them initialised. -/
def callReads : Callee → List (Place × Bool) → List Place
  | .arrayLen, [a] => [a.1.field lenField]
  | .arrayIndex, [a, i] => [a.1.field lenField, i.1]
  | _, args => args.map (·.1)

/-- What a bounds check consults: the index and the length. -/
def checkOperands (m : Mem) : Op → Option (W × W)
  | .call .arrayResolveIndex [i, l] _ => some ((m.cell i.1).w, (m.cell l.1).w)
  | .call .arrayIndex [a, i] _ => some ((m.cell i.1).w, (m.cell (a.1.field lenField)).w)
  | _ => none

/-- An operation runs and succeeds. -/
inductive OpStep (f : Body) : Op → Mem → Mem → Prop
  | alloca {id m m'} (hr : m'.reg = m.reg)
      (hj : ∀ q, (Place.mk (.alloca id) []).covers q = true → m'.cell q = .junk)
      (hs : SameExcept (fun q => (Place.mk (.alloca id) []).covers q = true) m m') :
      OpStep f (.alloca id) m m'
  | storeConst {w dst m m'} (hr : m'.reg = m.reg) (hv : m'.cell dst = .int w)
      (hs : SameExcept (fun q => dst.covers q = true) m m') :
      OpStep f (.storeConst w dst) m m'
  | storeReg {r dst m m'} (hr : m'.reg = m.reg) (hv : m'.cell dst = m.reg r)
      (hs : SameExcept (fun q => dst.covers q = true) m m') :
      OpStep f (.storeReg r dst) m m'
  | buildArray {n dst m m'} (hr : m'.reg = m.reg)
      (hv : m'.cell (dst.field lenField) = .int (BitVec.ofNat 64 n))
      (hs : SameExcept (fun q => dst.covers q = true) m m') :
      OpStep f (.buildArray n dst) m m'
  | load {r src m} :
      OpStep f (.load r src) m { m with reg := fun x => if x = r then m.cell src else m.reg x }
  | subfield {base field m}
      (hlen : base.path = [] → field = lenField → base.root ∈ f.arrays → m.cell (base.field field) ≠ .junk ∧
        (0 : W).sle (m.cell (base.field field)).w = true) :
      OpStep f (.subfield base field) m m
  | memcpy {src dst m m'} (hr : m'.reg = m.reg)
      (hv : ∀ q, m'.cell (dst.down q) = m.cell (src.down q))
      (hs : SameExcept (fun q => dst.covers q = true) m m') :
      OpStep f (.memcpy src dst) m m'
  | move {src dst m m'} (hr : m'.reg = m.reg)
      (hv : ∀ q, m'.cell (dst.down q) = m.cell (src.down q))
      (hd : src.covers dst = false ∧ dst.covers src = false)
      (hj : ∀ q, src.covers q = true → m'.cell q = .junk)
      (hs : SameExcept (fun q => dst.covers q = true ∨ src.covers q = true) m m') :
      OpStep f (.move src dst) m m'
  | drop {p m m'} (hr : m'.reg = m.reg)
      (hj : ∀ q, p.covers q = true → m'.cell q = .junk)
      (hs : SameExcept (fun q => p.covers q = true) m m') :
      OpStep f (.drop p) m m'
  | extractTag {r src m} :
      OpStep f (.extractTag r src) m
        { m with reg := fun x => if x = r then m.cell src else m.reg x }
  | compEqPlace {r p tag m} (hj : m.cell p ≠ .junk) :
      OpStep f (.compEq r (.place p) tag) m
        { m with reg := fun x => if x = r then .bool (m.cell p == .tag tag) else m.reg x }
  | compEqReg {r s tag m} (hj : m.reg s ≠ .junk) :
      OpStep f (.compEq r (.reg s) tag) m
        { m with reg := fun x => if x = r then .bool (m.reg s == .tag tag) else m.reg x }
  | compute {c args result v m m'} (hp : PlainCall args result)
      (hj : ∀ p ∈ callReads c args, m.cell p ≠ .junk)
      (hc : callValue m c args = some v) (hr : m'.reg = m.reg) (hv : m'.cell result = v)
      (hs : SameExcept (fun q => result.covers q = true) m m') :
      OpStep f (.call c args result) m m'
  | resolveIndex {args result i l w m m'} (hp : PlainCall args result)
      (hj : ∀ p ∈ callReads .arrayResolveIndex args, m.cell p ≠ .junk)
      (ho : checkOperands m (.call .arrayResolveIndex args result) = some (i, l))
      (hw : resolve i l = some w) (hr : m'.reg = m.reg) (hv : m'.cell result = .int w)
      (hs : SameExcept (fun q => result.covers q = true) m m') :
      OpStep f (.call .arrayResolveIndex args result) m m'
  | arrayIndex {args result i l w m m'}
      (hp : ∀ a ∈ args, result.covers a.1 = false ∧ a.1.covers result = false)
      (hj : ∀ p ∈ callReads .arrayIndex args, m.cell p ≠ .junk)
      (ho : checkOperands m (.call .arrayIndex args result) = some (i, l))
      (hw : resolve i l = some w) (hr : m'.reg = m.reg)
      (hs : SameExcept (fun q => result.covers q = true) m m') :
      OpStep f (.call .arrayIndex args result) m m'
  | other {k args result m m'} (hr : m'.reg = m.reg)
      (hs : SameExcept (CallWrites f args result) m m') :
      OpStep f (.call (.other k) args result) m m'
  | clone {src dst m m'} (hr : m'.reg = m.reg)
      (hs : SameExcept (fun q => dst.covers q = true) m m') :
      OpStep f (.clone src dst) m m'

/-- An operation runs and fails; only these can. -/
inductive OpFail (f : Body) : Op → Mem → Mem → Prop
  | resolveIndex {args result i l m m'} (hp : PlainCall args result)
      (ho : checkOperands m (.call .arrayResolveIndex args result) = some (i, l))
      (hw : resolve i l = none) (hr : m'.reg = m.reg)
      (hs : SameExcept (fun q => result.covers q = true) m m') :
      OpFail f (.call .arrayResolveIndex args result) m m'
  | arrayIndex {args result i l m m'}
      (ho : checkOperands m (.call .arrayIndex args result) = some (i, l))
      (hw : resolve i l = none) (hr : m'.reg = m.reg)
      (hs : SameExcept (fun q => result.covers q = true) m m') :
      OpFail f (.call .arrayIndex args result) m m'
  | other {k args result m m'} (hr : m'.reg = m.reg)
      (hs : SameExcept (CallWrites f args result) m m') :
      OpFail f (.call (.other k) args result) m m'

/-- The points an execution reaches: block, position in the block, memory. Every operation run on
the way satisfies `ok`. -/
inductive Reach (f : Body) (ok : Op → Mem → Prop) (m₀ : Mem) : Nat → Nat → Mem → Prop
  | start : Reach f ok m₀ 0 0 m₀
  | op {b i m m' blk op} (h : Reach f ok m₀ b i m) (hb : f.blocks[b]? = some blk)
      (ho : blk.ops[i]? = some op) (hok : ok op m) (hs : OpStep f op m m') :
      Reach f ok m₀ b (i + 1) m'
  | goto {b m blk t} (h : Reach f ok m₀ b blk.ops.length m) (hb : f.blocks[b]? = some blk)
      (ht : blk.term = .goto t) : Reach f ok m₀ t 0 m
  | condBr {b m blk c thn els v} (h : Reach f ok m₀ b blk.ops.length m)
      (hb : f.blocks[b]? = some blk) (ht : blk.term = .condBr c thn els)
      (hc : m.reg c = .bool v) : Reach f ok m₀ (if v then thn else els) 0 m
  | invokeOk {b m m' blk op normal error} (h : Reach f ok m₀ b blk.ops.length m)
      (hb : f.blocks[b]? = some blk) (ht : blk.term = .invoke op normal error)
      (hok : ok op m) (hs : OpStep f op m m') : Reach f ok m₀ normal 0 m'
  | invokeFail {b m m' blk op normal error} (h : Reach f ok m₀ b blk.ops.length m)
      (hb : f.blocks[b]? = some blk) (ht : blk.term = .invoke op normal error)
      (hok : ok op m) (hs : OpFail f op m m') : Reach f ok m₀ error 0 m'

/-- The state the analysis has before the operation at position `i` of block `b`
(`Analysis::replay`, relations.rs:766-799). -/
def pointState (rank : Symbol → Nat) (f : Body) (r : Run) (b i : Nat) : Option State :=
  match r.entries b, f.blocks[b]? with
  | some e, some blk => some (transferOps rank f b 0 (blk.allOps.take i) e)
  | _, _ => none

end Ferlium.Relations
