import Mathlib.Data.BitVec

/-!
Model of `int` operations (`src/std/math.rs`) on a 64-bit target: `isize` is `BitVec 64` (two's complement).
-/
namespace Ferlium.IntOps

/-- `Int` = `isize`, math.rs:50ff, on a 64-bit target. -/
abbrev I := BitVec 64

/-- `clamp_to_u32` math.rs:210-222 (64-bit branch); the result is a `u32`, here a `Nat`. -/
def clampToU32 (value : I) : Nat :=
  if value.toInt ≤ 0 then 0 else min value.toNat (2^32 - 1)

/-- `clamped_negated_shift_to_u32` math.rs:224-227. -/
def clampedNegatedShift (shift : I) : Nat :=
  let shift := if shift = BitVec.intMin 64 then BitVec.intMax 64 else -shift
  clampToU32 shift

/-- Rust `isize::wrapping_shl`: the amount is masked to the word size. -/
def wrappingShl (v : I) (n : Nat) : I := v <<< (n % 64)

/-- Rust `isize::wrapping_shr` (arithmetic), amount masked. -/
def wrappingShr (v : I) (n : Nat) : I := v.sshiftRight (n % 64)

/-- `shift_left` math.rs:229-237. -/
def shiftLeft (value shift : I) : I :=
  if shift.toInt < 0 then wrappingShr value (clampedNegatedShift shift)
  else wrappingShl value (clampToU32 shift)

/-- `shift_right` math.rs:239-247. -/
def shiftRight (value shift : I) : I :=
  if shift.toInt < 0 then wrappingShl value (clampedNegatedShift shift)
  else wrappingShr value (clampToU32 shift)

/-- Rust `isize::rotate_left`; the amount counts modulo the word size. -/
def rotl (v : I) (n : Nat) : I := v.rotateLeft n

/-- Rust `isize::rotate_right`. -/
def rotr (v : I) (n : Nat) : I := v.rotateRight n

/-- `rotate_left` math.rs:249-257. -/
def rotateLeft (value shift : I) : I :=
  if shift.toInt < 0 then rotr value (clampedNegatedShift shift)
  else rotl value (clampToU32 shift)

/-- `rotate_right` math.rs:259-267. -/
def rotateRight (value shift : I) : I :=
  if shift.toInt < 0 then rotl value (clampedNegatedShift shift)
  else rotr value (clampToU32 shift)

/-- Rust `isize::count_ones` as used by math.rs:269-271. -/
def countOnes (value : I) : Nat := (List.range 64).countP (fun i => value.getLsbD i)

/-- Rust `isize::count_zeros` (= ones of the complement) as used by math.rs:273-275. -/
def countZeros (value : I) : Nat := countOnes (~~~value)

/-- Rust `1isize.checked_shl(n)`. -/
def checkedShlOne (n : Nat) : Option I := if n < 64 then some (1#64 <<< n) else none

/-- `bit` math.rs:277-283. -/
def bit (position : I) : I :=
  if position.toInt < 0 then 0#64
  else (checkedShlOne (clampToU32 position)).getD 0#64

/-- `set_bit` math.rs:285-287. -/
def setBit (value position : I) : I := value ||| bit position

/-- `clear_bit` math.rs:289-291. -/
def clearBit (value position : I) : I := value &&& ~~~(bit position)

/-- `test_bit` math.rs:293-295. -/
def testBit (value position : I) : Bool := (value &&& bit position) ≠ 0#64

/-! ### Division -/

/-- Outcome of a fallible native integer function. -/
inductive DivRes where
  | ok (v : I)
  | divisionByZero
  | remainderByZero
  /-- Rust panics with "attempt to divide with overflow" (in every build profile). -/
  | hostPanic
  deriving DecidableEq, Repr

/-- Rust `/` on `isize` after the zero test: overflow check, then truncated division. -/
def rustDiv (l r : I) : Option I :=
  if l = BitVec.intMin 64 ∧ r = BitVec.allOnes 64 then none else some (l.sdiv r)

/-- Rust `%` on `isize` after the zero test. -/
def rustRem (l r : I) : Option I :=
  if l = BitVec.intMin 64 ∧ r = BitVec.allOnes 64 then none else some (l.srem r)

/-- `idiv` math.rs:563-577. -/
def idiv (l r : I) : DivRes :=
  if r = 0#64 then .divisionByZero
  else match rustDiv l r with
    | some q => .ok q
    | none => .hostPanic

/-- `rem` math.rs:593-607. -/
def rem (l r : I) : DivRes :=
  if r = 0#64 then .remainderByZero
  else match rustRem l r with
    | some q => .ok q
    | none => .hostPanic

/-- `idiv_euclid` math.rs:578-592 with Rust's `div_euclid`. -/
def idivEuclid (l r : I) : DivRes :=
  if r = 0#64 then .divisionByZero
  else match rustDiv l r, rustRem l r with
    | some q, some m =>
      if m.slt 0#64 then (if (0#64).slt r then .ok (q - 1#64) else .ok (q + 1#64)) else .ok q
    | _, _ => .hostPanic

/-- `mod` math.rs:608-622 with Rust's `rem_euclid`. -/
def modEuclid (l r : I) : DivRes :=
  if r = 0#64 then .remainderByZero
  else match rustRem l r with
    | some m => if m.slt 0#64 then .ok (m + (if r.slt 0#64 then -r else r)) else .ok m
    | none => .hostPanic

/-- `abs` on `int`, math.rs:519 (`isize::abs`): `none` is the overflow panic of a build with overflow checks. -/
def absChecked (v : I) : Option I :=
  if v = BitVec.intMin 64 then none else some (if v.slt 0#64 then -v else v)

/-! ### Comparison helpers (comparison.fer, core_impls.fer) -/

section Cmp
variable {α : Type} (cmp : α → α → Ordering)

/-- `lt` comparison.fer:7-12. -/
def lt (l r : α) : Bool := match cmp l r with | .lt => true | _ => false
/-- `le` comparison.fer:15-20. -/
def le (l r : α) : Bool := match cmp l r with | .gt => false | _ => true
/-- `gt` comparison.fer:23-28. -/
def gt (l r : α) : Bool := match cmp l r with | .gt => true | _ => false
/-- `ge` comparison.fer:31-36. -/
def ge (l r : α) : Bool := match cmp l r with | .lt => false | _ => true
/-- `min` comparison.fer:39-44. -/
def min2 (l r : α) : α := match cmp l r with | .lt => l | _ => r
/-- `max` comparison.fer:47-52. -/
def max2 (l r : α) : α := match cmp l r with | .gt => l | _ => r
/-- `ne` comparison.fer:2-4. -/
def ne (eq : α → α → Bool) (l r : α) : Bool := !(eq l r)
/-- `clamp` core_impls.fer:4-10; `none` is the documented panic. -/
def clamp (value minBound maxBound : α) : Option α :=
  if gt cmp minBound maxBound then none else some (max2 cmp minBound (min2 cmp value maxBound))
end Cmp

end Ferlium.IntOps
