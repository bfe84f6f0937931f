import Verif.Model.Normal

/-!
Model of the string values of the standard library, `src/std/string.rs`: the operations which build strings.

A string is its text; `Rc` and `make_mut` have no visible effect.  `to_uppercase`, `to_lowercase`, `str::replace` and the test
for white space are parameters: they are functions of the Rust standard library on texts.
-/
namespace Ferlium.Text

/-- `String::new` string.rs:104-106, also `StaticStr::new` 66-70. -/
def fresh (N : Normaliser) (s : Text) : Text := N.nfc s

/-- `push_normalized` string.rs:166-182, the body of `push_str` and `push_static_str`. -/
def push (N : Normaliser) (s value : Text) : Text :=
  match value with
  | c :: _ => if N.mark c then N.nfc (s ++ value) else s ++ value
  | [] => s ++ value

/-- `concat` string.rs:184-186. -/
def concat (N : Normaliser) (l r : Text) : Text := N.nfc (l ++ r)

/-- `normalize_index` string.rs:224-230. -/
def sliceIndex (index : Int) (len : Nat) : Nat :=
  if index < 0 then (max (len + index) 0).toNat else min index.toNat len

/-- `slice` string.rs:206-222. -/
def slice (N : Normaliser) (s : Text) (start stop : Int) : Text :=
  let clusters := N.graphemes s
  let first := sliceIndex start clusters.length
  let last := sliceIndex stop clusters.length
  if last ≤ first then [] else ((clusters.take last).drop first).flatten

/-- `trim` string.rs:246-248: white space is removed from both ends. -/
def trim (white : Char → Bool) (s : Text) : Text :=
  ((s.dropWhile white).reverse.dropWhile white).reverse

/-- The position of the next separator, `next_separator_start` string.rs:516-531.  `clusters` are those from `next_start` on,
the result counts from there; a separator has at least one cluster. -/
def separatorAt (separator : Text) (width : Nat) : List Text → Option Nat
  | [] => none
  | c :: rest =>
    if width ≤ (c :: rest).length then
      if ((c :: rest).take width).flatten = separator then some 0
      else (separatorAt separator width rest).map (· + 1)
    else none

/-- What the iterator of `split` yields, string.rs:555-577, for a separator of `width` clusters, at least one: `split` refuses
an empty separator. -/
def splitParts (separator : Text) (width : Nat) : Nat → List Text → List Text
  | 0, clusters => [clusters.flatten]
  | fuel + 1, clusters =>
    match separatorAt separator width clusters with
    | some i => (clusters.take i).flatten :: splitParts separator width fuel (clusters.drop (i + width))
    | none => [clusters.flatten]

/-- `split` with the separator, where each part but the last consumes at least one cluster. -/
def split (N : Normaliser) (s separator : Text) : List Text :=
  splitParts separator (N.graphemes separator).length (N.graphemes s).length (N.graphemes s)

/-- Functions on texts of the Rust standard library. -/
structure Library where
  upper : Text → Text
  lower : Text → Text
  /-- `str::replace`. -/
  replace : Text → Text → Text → Text
  /-- `char::is_whitespace`. -/
  white : Char → Bool

/-- Operations of the string API on numbered strings.  All but `push` add a new string. -/
inductive Op
  | new (s : Text)
  | concat (a b : Nat)
  | push (a b : Nat)
  | slice (a : Nat) (start stop : Int)
  | trim (a : Nat)
  | upper (a : Nat)
  | lower (a : Nat)
  /-- `replace` string.rs:232-236. -/
  | replace (a pattern by_ : Nat)
  /-- An item of the iterator over the clusters, string.rs:471-488, which is normalised again. -/
  | item (a k : Nat)
  /-- An item of the iterator of `split`. -/
  | part (a separator k : Nat)

/-- One operation; `none` for a string which does not exist. -/
def runOp (N : Normaliser) (X : Library) (regs : List Text) : Op → Option (List Text)
  | .new s => some (regs ++ [fresh N s])
  | .concat a b => do return regs ++ [concat N (← regs[a]?) (← regs[b]?)]
  | .push a b => do return regs.set a (push N (← regs[a]?) (← regs[b]?))
  | .slice a i j => do return regs ++ [slice N (← regs[a]?) i j]
  | .trim a => do return regs ++ [trim X.white (← regs[a]?)]
  | .upper a => do return regs ++ [fresh N (X.upper (← regs[a]?))]
  | .lower a => do return regs ++ [fresh N (X.lower (← regs[a]?))]
  | .replace a p b => do return regs ++ [N.nfc (X.replace (← regs[a]?) (← regs[p]?) (← regs[b]?))]
  | .item a k => do return regs ++ [fresh N (← (N.graphemes (← regs[a]?))[k]?)]
  | .part a p k => do
    let separator ← regs[p]?
    if separator = [] then none
    else return regs ++ [← (split N (← regs[a]?) separator)[k]?]

end Ferlium.Text
