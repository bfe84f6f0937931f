import Mathlib.Data.Int.Log
import Mathlib.Data.Rat.Floor
import Mathlib.Algebra.Order.Field.Power
import Mathlib.Data.BitVec
import Verif.Model.Int

/-!
Model of `float` (`src/std/math.rs`): finite IEEE-754 binary64 values with saturating arithmetic.

The host's `f64` operations are modelled exactly, by rational arithmetic followed by rounding to nearest even.
-/
namespace Ferlium.Flt

/-- An `f64`: sign and magnitude, an infinity, or NaN.  The two zeros are distinct values. -/
inductive F64 where
  | fin (neg : Bool) (mag : ℚ)
  | inf (neg : Bool)
  | nan
  deriving DecidableEq

/-- Rounding of a non-negative rational to an integer, ties to even (IEEE 754 roundTiesToEven on significands). -/
def roundHalfEven (x : ℚ) : ℤ :=
  if x - ⌊x⌋ < 1/2 then ⌊x⌋
  else if 1/2 < x - ⌊x⌋ then ⌊x⌋ + 1
  else if ⌊x⌋ % 2 = 0 then ⌊x⌋ else ⌊x⌋ + 1

/-- The exponent of the last significand bit used for a positive magnitude `q`. -/
def ulpExp (q : ℚ) : ℤ := max (Int.log 2 q - 52) (-1074)

/-- IEEE 754 rounding of a magnitude `q ≥ 0` to binary64 (what the hardware does; not code of the repository).
The sign is kept, also when the magnitude rounds to zero. -/
def roundMag (neg : Bool) (q : ℚ) : F64 :=
  if q = 0 then .fin neg 0
  else
    let r : ℚ := roundHalfEven (q / 2 ^ ulpExp q) * 2 ^ ulpExp q
    if (2:ℚ) ^ (1024:ℤ) ≤ r then .inf neg else .fin neg r

/-- Signed value of a finite sign/magnitude pair. -/
def sval (neg : Bool) (mag : ℚ) : ℚ := if neg then -mag else mag

/-- A Ferlium `float`: `Float(NotNan<f64>)`, math.rs:74, by sign and magnitude. -/
structure Float where
  neg : Bool
  mag : ℚ
  deriving DecidableEq

/-- The rational number a float stands for. -/
def Float.val (x : Float) : ℚ := sval x.neg x.mag

/-- Largest finite magnitude, `f64::MAX`. -/
def maxMag : ℚ := (2^53 - 1) * 2 ^ (971:ℤ)

/-- `Float::new` math.rs:80-88; `none` is `Err(FloatIsNotFinite)`. -/
def Float.new : F64 → Option Float
  | .fin n m => some ⟨n, m⟩
  | _ => none

/-- `Float::new_saturating` math.rs:90-100; `none` is the host panic on NaN. -/
def Float.newSaturating : F64 → Option Float
  | .fin n m => some ⟨n, m⟩
  | .nan => none
  | .inf true => some ⟨true, maxMag⟩
  | .inf false => some ⟨false, maxMag⟩

/-- IEEE `+` on finite operands: an exact zero sum is `+0` unless both operands are negative. -/
def f64Add (x y : Float) : F64 :=
  let s := x.val + y.val
  if s = 0 then .fin (x.neg && y.neg) 0 else roundMag (decide (s < 0)) |s|

/-- IEEE unary minus. -/
def Float.negate (x : Float) : Float := ⟨!x.neg, x.mag⟩

/-- IEEE `-` on finite operands. -/
def f64Sub (x y : Float) : F64 := f64Add x y.negate

/-- IEEE `*` on finite operands. -/
def f64Mul (x y : Float) : F64 := roundMag (x.neg ^^ y.neg) (x.mag * y.mag)

/-- IEEE `/` on finite operands. -/
def f64Div (x y : Float) : F64 :=
  if y.mag = 0 then (if x.mag = 0 then .nan else .inf (x.neg ^^ y.neg))
  else roundMag (x.neg ^^ y.neg) (x.mag / y.mag)

/-- Outcome of a native float function. -/
inductive Res where
  | ok (x : Float)
  | divisionByZero
  | hostPanic

/-- Lifts `new_saturating`. -/
def sat (v : F64) : Res := match Float.newSaturating v with | some x => .ok x | none => .hostPanic

/-- `add_float` math.rs:313-315. -/
def addFloat (x y : Float) : Res := sat (f64Add x y)
/-- `sub_float` math.rs:317-319. -/
def subFloat (x y : Float) : Res := sat (f64Sub x y)
/-- `mul_float` math.rs:321-323. -/
def mulFloat (x y : Float) : Res := sat (f64Mul x y)
/-- `div_float` math.rs:325-331 (the test `== 0.0` holds for both zeros). -/
def divFloat (x y : Float) : Res := if y.val = 0 then .divisionByZero else sat (f64Div x y)

/-- `equal_float` math.rs:305-307: `f64` equality, by value. -/
def equalFloat (x y : Float) : Bool := x.val = y.val

/-- `compare_float` math.rs:309-311. -/
def compareFloat (x y : Float) : Ordering := compare x.val y.val

/-- `isize_to_float` math.rs:177-180 / `saturating_cast_int_to_float` math.rs:183-195 at `isize`
(`as f64` rounds to nearest even). -/
def intToFloat (n : BitVec 64) : Res :=
  match Float.new (if n.toInt = 0 then .fin false 0 else roundMag (decide (n.toInt < 0)) |(n.toInt : ℚ)|) with
  | some x => .ok x
  | none => .hostPanic

/-- Truncation toward zero of the value. -/
def trunc (q : ℚ) : ℤ := if 0 ≤ q then ⌊q⌋ else ⌈q⌉

/-- `saturating_trunc` math.rs:197-208 at `isize`: the numeric cast succeeds exactly when the truncated value fits. -/
def saturatingTrunc (x : Float) : BitVec 64 :=
  let t := trunc x.val
  if -2^63 ≤ t ∧ t < 2^63 then BitVec.ofInt 64 t
  else if x.neg then BitVec.intMin 64 else BitVec.intMax 64

/-- Rust's saturating `as isize` cast of an integral `f64`, used by `round`, `floor`, `ceil` math.rs:452-462. -/
def castInt (t : ℤ) : BitVec 64 :=
  if t < -2^63 then BitVec.intMin 64 else if 2^63 ≤ t then BitVec.intMax 64 else BitVec.ofInt 64 t

/-- `floor` math.rs:456-458. -/
def floorFloat (x : Float) : BitVec 64 := castInt ⌊x.val⌋
/-- `ceil` math.rs:460-462. -/
def ceilFloat (x : Float) : BitVec 64 := castInt ⌈x.val⌉
/-- `round` math.rs:452-454: `f64::round` rounds half away from zero. -/
def roundFloat (x : Float) : BitVec 64 :=
  castInt (if 0 ≤ x.val then ⌊x.val + 1/2⌋ else ⌈x.val - 1/2⌉)

/-! ### Bit patterns -/

/-- IEEE binary64 decoding of a bit pattern; used for `to_bits` in `hash_float` math.rs:301-303. -/
def decode (b : BitVec 64) : F64 :=
  let neg := b.getLsbD 63
  let e : Nat := b.toNat / 2^52 % 2^11
  let m : Nat := b.toNat % 2^52
  if e = 2047 then (if m = 0 then .inf neg else .nan)
  else if e = 0 then .fin neg ((m : ℚ) * 2 ^ (-1074 : ℤ))
  else .fin neg ((2^52 + (m : ℚ)) * 2 ^ ((e : ℤ) - 1075))

/-! ### Partial-argument call rewrites (fold.rs) -/

/-- The `KnownCallee`s with rules in fold.rs (known_callee.rs:79-130); the array and range callees have none. -/
inductive Callee where
  | intAdd | intSub | intMul | intNeg | intFromInt | intCmp
  | floatAdd | floatSub | floatMul | floatNeg | floatCmp | boolNot
  deriving DecidableEq

/-- Run-time values of the arguments and results concerned. -/
inductive Val where
  | int (v : BitVec 64)
  | float (x : Float)
  | bool (b : Bool)
  | ordering (o : Ordering)
  deriving DecidableEq

/-- What the analysis knows about the argument places of a call: the literal each is known to hold (by index) and
whether two of them are the same operand or place.  `known i` is `place_is_known` (a literal or another constant). -/
structure Facts where
  literal : Nat → Option Val
  known : Nat → Bool
  same : Nat → Nat → Bool

/-- `CallRewrite` fold.rs: copy an argument, a constant, the `Equal` ordering, or negate a boolean argument. -/
inductive Rewrite where
  | copy (arg : Nat)
  | const (v : Val)
  | equalOrdering
  | negate (arg : Nat)
  deriving DecidableEq

/-- `int_is` closure of fold.rs:976-979. -/
def intIs (F : Facts) (i : Nat) (n : BitVec 64) : Bool := F.literal i = some (.int n)

/-- `float_is` closure of fold.rs:980-984 (equal bit patterns: same sign and magnitude). -/
def floatIs (F : Facts) (i : Nat) (x : Float) : Bool := F.literal i = some (.float x)

/-- The rule table of `partial_call_outcome` fold.rs:1005-1051, in its order.  The guards of 931-944 (no effects, value
result, all arguments passed by `let`) restrict where it is used and are not modelled. -/
def partialCallOutcome (F : Facts) : Callee → Option Rewrite
  | .intAdd =>
    if intIs F 0 0#64 then some (.copy 1) else if intIs F 1 0#64 then some (.copy 0) else none
  | .intSub =>
    if F.same 0 1 then some (.const (.int 0#64)) else if intIs F 1 0#64 then some (.copy 0) else none
  | .intMul =>
    if intIs F 0 0#64 || intIs F 1 0#64 then some (.const (.int 0#64))
    else if intIs F 0 1#64 then some (.copy 1) else if intIs F 1 1#64 then some (.copy 0) else none
  | .intCmp => if F.same 0 1 then some .equalOrdering else none
  | .intFromInt => if !F.known 0 then some (.copy 0) else none
  | .boolNot => if !F.known 0 then some (.negate 0) else none
  | .floatSub =>
    if F.same 0 1 then some (.const (.float ⟨false, 0⟩))
    else if floatIs F 1 ⟨false, 0⟩ then some (.copy 0) else none
  | .floatMul =>
    if floatIs F 0 ⟨false, 1⟩ then some (.copy 1) else if floatIs F 1 ⟨false, 1⟩ then some (.copy 0) else none
  | .floatCmp => if F.same 0 1 then some .equalOrdering else none
  | .intNeg | .floatAdd | .floatNeg => none

/-- Lifts a float outcome. -/
def ofRes : Res → Option Val
  | .ok x => some (.float x)
  | _ => none

/-- What the call computes: the `Num`/`Ord` implementations math.rs:510-523, logic.rs `not`; `none` for ill-typed
arguments or a host panic. -/
def callValue : Callee → List Val → Option Val
  | .intAdd, [.int a, .int b] => some (.int (a + b))
  | .intSub, [.int a, .int b] => some (.int (a - b))
  | .intMul, [.int a, .int b] => some (.int (a * b))
  | .intNeg, [.int a] => some (.int (-a))
  | .intFromInt, [.int a] => some (.int a)
  | .intCmp, [.int a, .int b] => some (.ordering (compare a.toInt b.toInt))
  | .floatAdd, [.float a, .float b] => ofRes (addFloat a b)
  | .floatSub, [.float a, .float b] => ofRes (subFloat a b)
  | .floatMul, [.float a, .float b] => ofRes (mulFloat a b)
  | .floatNeg, [.float a] => some (.float a.negate)
  | .floatCmp, [.float a, .float b] => some (.ordering (compareFloat a b))
  | .boolNot, [.bool b] => some (.bool (!b))
  | _, _ => none

/-- What the rewritten code computes (fold.rs:890-911 and the application of `CallRewrite`; `Negate` becomes
`comp_eq x false`). -/
def rewriteValue (args : List Val) : Rewrite → Option Val
  | .copy i => args[i]?
  | .const v => some v
  | .equalOrdering => some (.ordering .eq)
  | .negate i => match args[i]? with
    | some (.bool b) => some (.bool (b == false))
    | _ => none

end Ferlium.Flt
