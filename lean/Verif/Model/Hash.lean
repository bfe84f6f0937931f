import Mathlib.Data.BitVec
import Verif.Model.Float

/-!
Model of the hasher (`src/std/hash.rs`) and of the derived structural equality and hash (`src/std/value.rs`).
-/
namespace Ferlium.Hash

abbrev W := BitVec 64

/-- `x ^= x >> k`. -/
def xorShift (k : Nat) (x : W) : W := x ^^^ (x >>> k)

/-- `mix_word` hash.rs:106-116. -/
def mixWord (state word : W) : W :=
  let x := (word + 0x9e3779b97f4a7c15#64).rotateLeft 17
  let s := state ^^^ x
  let s := s * 0xbf58476d1ce4e5b9#64
  let s := xorShift 32 s
  let s := s * 0x94d049bb133111eb#64
  xorShift 29 s

/-- `final_mix` hash.rs:118-125. -/
def finalMix (x : W) : W :=
  let x := xorShift 30 x
  let x := x * 0xbf58476d1ce4e5b9#64
  let x := xorShift 27 x
  let x := x * 0x94d049bb133111eb#64
  xorShift 31 x

/-- `Hasher::INIT` hash.rs:59. -/
def init : W := 0x6e624eb7a3c9b5c1#64

/-- Writing a sequence of words, `write_u64` hash.rs:73-75. -/
def writeWords (state : W) (ws : List W) : W := ws.foldl mixWord state

/-- Words fed by `write_bytes` hash.rs:85-90 (`len as u64` wraps, as here). -/
def bytesWords (bs : List (BitVec 8)) : List W := BitVec.ofNat 64 bs.length :: bs.map (fun b => b.setWidth 64)

/-! ### Structural values -/

/-- Run-time values of derived types.  Strings and tags are their UTF-8 bytes, floats their bit patterns. -/
inductive Val where
  | int (v : W)
  | bool (b : Bool)
  | float (bits : W)
  | str (bytes : List (BitVec 8))
  | unit
  | prod (members : List Val)
  | variant (tag : List (BitVec 8)) (payload : Val)
  | array (elems : List Val)
  | func

/-- Float equality on bit patterns (`equal_float` math.rs:305-307, on decoded values). -/
def floatBitsEq (a b : W) : Bool :=
  match Flt.decode a, Flt.decode b with
  | .fin n m, .fin n' m' => Flt.equalFloat ⟨n, m⟩ ⟨n', m'⟩
  | _, _ => false

mutual
/-- `==`: native equalities (math.rs, logic.rs, string.rs:600), `derive_value_eq_body` value.rs:1437-1627 (products
member by member stopping at the first difference; variants by left tag, right tag, then payload unless its type is
unit; functions never equal) and `array.fer` equality.  Named types use their shape.  Values of different shapes do not
meet in a well-typed program; here they are unequal. -/
def eqV : Val → Val → Bool
  | .int a, .int b => a == b
  | .bool a, .bool b => a == b
  | .float a, .float b => floatBitsEq a b
  | .str a, .str b => a == b
  | .unit, .unit => true
  | .prod as, .prod bs => eqVs as bs
  | .variant t p, .variant t' p' =>
    if t = t' then (match p with | .unit => true | _ => eqV p p') else false
  | .array as, .array bs => if as.length = bs.length then eqVs as bs else false
  | _, _ => false
/-- Member-by-member equality. -/
def eqVs : List Val → List Val → Bool
  | [], [] => true
  | a :: as, b :: bs => if eqV a b then eqVs as bs else false
  | _, _ => false
end

mutual
/-- Words fed to the hasher by `hash`: native hashes (math.rs:297-303, logic.rs:80, string.rs:596, core.rs:57),
`derive_value_hash_body` value.rs:1629-1820 and `array.fer` `hash` 40-51 (length, then elements). -/
def words : Val → List W
  | .int v => [v]
  | .bool b => [if b then 1#64 else 0#64]
  | .float bits => [bits]
  | .str bs => bytesWords bs
  | .unit => []
  | .prod vs => wordsAll vs
  | .variant tag p => bytesWords tag ++ (match p with | .unit => [] | _ => words p)
  | .array vs => BitVec.ofNat 64 vs.length :: wordsAll vs
  | .func => bytesWords ("<function>".toUTF8.toList.map (fun b => BitVec.ofNat 8 b.toNat))
def wordsAll : List Val → List W
  | [] => []
  | v :: vs => words v ++ wordsAll vs
end

/-- `hash(value)` from a hasher state. -/
def hashV (state : W) (v : Val) : W := writeWords state (words v)

/-! ### Types, to say when two values have the same type -/

inductive Ty where
  | int | bool | float | str | unit | func
  | prod (members : List Ty)
  | sum (variants : List (List (BitVec 8) × Ty))
  | array (elem : Ty)
  /-- a named (possibly recursive) type, with its shape in the environment -/
  | named (id : Nat)

mutual
/-- Typing of values; `env` gives the shape of each named type.  Lengths fit a machine word. -/
inductive HasType (env : Nat → Ty) : Ty → Val → Prop
  | int (v : W) : HasType env .int (.int v)
  | bool (b : Bool) : HasType env .bool (.bool b)
  | float (b : W) : HasType env .float (.float b)
  | str (bs : List (BitVec 8)) : bs.length < 2^64 → HasType env .str (.str bs)
  | unit : HasType env .unit .unit
  | func : HasType env .func .func
  | prod (ts : List Ty) (vs : List Val) : HasTypes env ts vs → HasType env (.prod ts) (.prod vs)
  | variant (vars : List (List (BitVec 8) × Ty)) (tag : List (BitVec 8)) (t : Ty) (p : Val) : tag.length < 2^64 →
      vars.lookup tag = some t → HasType env t p → HasType env (.sum vars) (.variant tag p)
  | array (t : Ty) (vs : List Val) : vs.length < 2^64 → AllType env t vs → HasType env (.array t) (.array vs)
  | named (i : Nat) (v : Val) : HasType env (env i) v → HasType env (.named i) v
inductive HasTypes (env : Nat → Ty) : List Ty → List Val → Prop
  | nil : HasTypes env [] []
  | cons (t : Ty) (v : Val) (ts : List Ty) (vs : List Val) :
      HasType env t v → HasTypes env ts vs → HasTypes env (t :: ts) (v :: vs)
inductive AllType (env : Nat → Ty) : Ty → List Val → Prop
  | nil (t : Ty) : AllType env t []
  | cons (t : Ty) (v : Val) (vs : List Val) : HasType env t v → AllType env t vs → AllType env t (v :: vs)
end

end Ferlium.Hash
