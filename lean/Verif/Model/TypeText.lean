/-!
# Text of types: how types are displayed and how type annotations are read

Models, at the level of lexical tokens,

* `src/types/type.rs` 277-299, 496-502, 938-954, 1124-1188, 1486-1499, 2627-2743:
  the text of a type (`fmt_type_with_env` and below) with all effects shown;
* `src/format.rs` 15-64: which names are written as raw identifiers;
* `src/parser/parser.lalrpop` 368-514, 735-778, 1048-1062, 1454-1464, 1548-1562: the grammar of
  type annotations;
* `src/parser/helpers.rs` 135-175: the check of type applications;
* `src/desugar/types.rs` 763-950, 1454-1638 and `src/desugar/mod.rs` 78-103: from the syntax tree of
  a type annotation to the type.

Left aside: white space (never significant between the tokens that occur here: no token of the
grammar starts with the last character of another token of a displayed type and a blank or a
delimiter stands between names), subscript types (they have no syntax), recursive types
(displayed with `Self`), generic aliases in displayed types, the display with hidden effects,
source locations and the record of used modules.  The parser generator is trusted to build a
parser of the grammar: the grammar is a relation here, not a program.
-/

namespace Ferlium.TypeText

/-! ## Tokens -/

/-- Tokens of the grammar that may occur in a type.  `under` is `_`, `path` is `::`, `word` is
any other keyword. -/
inductive Tok where
  | lpar | rpar | lbrk | rbrk | lbrc | rbrc
  | comma | colon | path | lt | gt | bar | arrow | bang | amp | quest | mut | under
  | name (s : String)
  | word (s : String)
  deriving DecidableEq, Repr

/-- A written identifier: plain, or raw with the prefix `r#` (parser.lalrpop 1458-1464). -/
inductive Ident where
  | plain (s : String)
  | raw (s : String)
  deriving DecidableEq, Repr

/-- format.rs:15-48 `is_keyword`. -/
def isKeyword (s : String) : Bool :=
  ["_", "and", "as", "effects_unsafe", "else", "enum", "false", "fn", "for", "if", "impl", "in",
    "let", "loop", "match", "mut", "not", "or", "pub", "return", "break", "continue", "struct",
    "trait", "true", "type", "use", "where"].contains s

/-- format.rs:57-63 `write_identifier`. -/
def writeIdent (s : String) : Ident := if isKeyword s then .raw s else .plain s

/-- The words that are terminals of the grammar (all quoted words of parser.lalrpop that are not
inside semantic actions), except `mut` and `_`. -/
def words : List String :=
  ["and", "as", "break", "const", "continue", "effects_unsafe", "else", "enum", "false", "fn",
    "for", "if", "impl", "in", "let", "loop", "match", "not", "or", "pub", "ref", "return",
    "struct", "subscript", "trait", "true", "type", "use", "where", "yield"]

/-- The token of a written identifier: quoted words of the grammar win over the pattern of
identifiers (the rule of the lexer generator), raw identifiers are never keywords
(parser.lalrpop:1458-1464). -/
def lexIdent : Ident → Tok
  | .raw s => .name s
  | .plain s =>
    if s = "mut" then .mut else if s = "_" then .under else
    if words.contains s then .word s else .name s

/-! ## Syntax trees -/

/-- Labels of list elements: nothing, `&mut`, `&?`, or a field or variant name. -/
inductive Lab where
  | plain
  | mut
  | anyMut
  | name (s : String)
  deriving DecidableEq, Repr

/-- ast/types.rs `PFnEffects`: pure by default, unknown by default, or written. -/
inductive PEffs where
  | pure
  | generic
  | names (es : List String)
  deriving DecidableEq, Repr

mutual
/-- ast/types.rs `PType`, without `Never` and `Resolved`, which have no syntax. -/
inductive PTy where
  | unit
  | infer
  | path (p : List String)
  | app (p : List String) (args : PTys) (effs : List String)
  | variant (items : PTys)
  | tuple (items : PTys)
  | record (items : PTys)
  | array (t : PTy)
  | fn (args : PTys) (ret : PTy) (effs : PEffs)
/-- Lists of syntax trees with labels. -/
inductive PTys where
  | nil
  | cons (l : Lab) (t : PTy) (rest : PTys)
end

deriving instance DecidableEq for PTy, PTys
deriving instance Repr for PTy, PTys

/-- One tree without label. -/
abbrev PTys.one (t : PTy) : PTys := .cons .plain t .nil

/-- Concatenation (`ext_f` of the grammar). -/
def PTys.append : PTys → PTys → PTys
  | .nil, r => r
  | .cons l t rest, r => .cons l t (rest.append r)

/-- No element is `&mut` or `&?` (parser.lalrpop:402-421). -/
def PTys.allPlain : PTys → Bool
  | .nil => true
  | .cons l _ rest => decide (l = .plain) && rest.allPlain

/-! ## The grammar -/

/-- What the elements of a list are: types, function arguments or record fields. -/
inductive Kind where
  | type
  | arg
  | field
  deriving DecidableEq, Repr

/-- Non-terminals of the grammar.  The flags are those of the grammar (parser.lalrpop:375-377):
`P`: placeholders allowed, `R`: record payloads of variants allowed, `F`: effects of a function
type may follow without parentheses; `U`: an alternative may be a bare tag. -/
inductive NT where
  | type (P R F : Bool)
  | item (k : Kind) (P R F : Bool)
  | sep (k : Kind) (P R F : Bool)
  | sep1 (k : Kind) (P R F : Bool)
  | alt (P U R : Bool)
  | alts (P R : Bool)
  | ret (P F : Bool)
  deriving DecidableEq, Repr

/-- parser.lalrpop:1057-1062 `PathIdentifier<"E">`: a segment of a path after the first. -/
inductive Seg : Tok → String → Prop where
  | name (s : String) : Seg (.name s) s
  | word {s : String} : s ∈ ["and", "or", "not"] → Seg (.word s) s

/-- The segments after the first, each with its `::` (parser.lalrpop:1053-1055). -/
inductive Segs : List Tok → List String → Prop where
  | nil : Segs [] []
  | cons {a s u p} : Seg a s → Segs u p → Segs (.path :: a :: u) (s :: p)

/-- parser.lalrpop:1048-1055 `Path`. -/
inductive IsPath : List Tok → List String → Prop where
  | mk {s u p} : Segs u p → IsPath (.name s :: u) (s :: p)

/-- `Sep1<EffectName, ",">` (parser.lalrpop:1559-1562). -/
inductive IsNames : List Tok → List String → Prop where
  | one (s : String) : IsNames [.name s] [s]
  | trail (s : String) : IsNames [.name s, .comma] [s]
  | cons {s u es} : IsNames u es → IsNames (.name s :: .comma :: u) (s :: es)

/-- parser.lalrpop:463-467 `FnEffectBindingValue`. -/
inductive IsEffs : List Tok → List String → Prop where
  | none : IsEffs [.lpar, .rpar] []
  | many {u es} : IsNames u es → IsEffs (.lpar :: (u ++ [.rpar])) es
  | one (s : String) : IsEffs [.name s] [s]

/-- Effects of a function type written without effects (`PFnEffects::implicit`): unknown where
placeholders are allowed, pure elsewhere. -/
def implicit (P : Bool) : PEffs := if P then .generic else .pure

/-- `D nt u v`: the tokens `u` are derived from the non-terminal `nt` with value `v`. -/
inductive D : NT → List Tok → PTys → Prop where
  /-- parser.lalrpop:479-481 -/
  | hole {R F} : D (.type true R F) [.under] (.one .infer)
  /-- parser.lalrpop:398-400 -/
  | unit {P R F} : D (.type P R F) [.lpar, .rpar] (.one .unit)
  /-- parser.lalrpop:488-490 -/
  | array {P R F u t} : D (.type P false true) u (.one t) →
      D (.type P R F) (.lbrk :: (u ++ [.rbrk])) (.one (.array t))
  /-- parser.lalrpop:492-499 -/
  | record {P R F u fs} : D (.sep1 .field P false true) u fs →
      D (.type P R F) (.lbrc :: (u ++ [.rbrc])) (.one (.record fs))
  | record0 {P R F} : D (.type P R F) [.lbrc, .rbrc] (.one (.record .nil))
  /-- parser.lalrpop:505-508 -/
  | variant {P R F u v} : D (.alt P false R) u v → D (.type P R F) u (.one (.variant v))
  | variants {P R F u v w vs} : D (.alt P true R) u v → D (.alts P R) w vs →
      D (.type P R F) (u ++ .bar :: w) (.one (.variant (v.append vs)))
  /-- parser.lalrpop:402-409 -/
  | paren {P R F u t} : D (.item .arg P R true) u (.one t) →
      D (.type P R F) (.lpar :: (u ++ [.rpar])) (.one t)
  /-- parser.lalrpop:411-421 -/
  | tuple {P R F u t w ts} : D (.item .arg P R true) u (.one t) → D (.sep .arg P R true) w ts →
      ts.allPlain = true →
      D (.type P R F) (.lpar :: (u ++ .comma :: (w ++ [.rpar]))) (.one (.tuple (.cons .plain t ts)))
  /-- parser.lalrpop:423-429 -/
  | fn0 {P R F w r e} : D (.ret P F) w (.one (.fn .nil r e)) →
      D (.type P R F) (.lpar :: .rpar :: w) (.one (.fn .nil r e))
  | fn1 {P R F u v w r e} : D (.item .arg P R true) u v → D (.ret P F) w (.one (.fn .nil r e)) →
      D (.type P R F) (.lpar :: (u ++ .rpar :: w)) (.one (.fn v r e))
  | fnN {P R F u v w vs x r e} : D (.item .arg P R true) u v → D (.sep .arg P R true) w vs →
      D (.ret P F) x (.one (.fn .nil r e)) →
      D (.type P R F) (.lpar :: (u ++ .comma :: (w ++ .rpar :: x))) (.one (.fn (v.append vs) r e))
  /-- parser.lalrpop:483-486 -/
  | path {P R F u p} : IsPath u p → D (.type P R F) u (.one (.path p))
  /-- parser.lalrpop:483-484, 735-778, helpers.rs:135-175 (named arguments and output bindings are
  refused) -/
  | app {P R F u p w args} : IsPath u p → D (.sep1 .type P false false) w args →
      D (.type P R F) (u ++ .lt :: (w ++ [.gt])) (.one (.app p args []))
  | appBoth {P R F u p w args x es} : IsPath u p → D (.sep1 .type P false false) w args →
      IsNames x es →
      D (.type P R F) (u ++ .lt :: (w ++ .bang :: (x ++ [.gt]))) (.one (.app p args es))
  | appEffs {P R F u p x es} : IsPath u p → IsNames x es →
      D (.type P R F) (u ++ .lt :: .bang :: (x ++ [.gt])) (.one (.app p .nil es))
  /-- parser.lalrpop:473-477 -/
  | itemType {P R F u t} : D (.type P R F) u (.one t) → D (.item .type P R F) u (.one t)
  | itemArg {P R F u t} : D (.type P R F) u (.one t) → D (.item .arg P R F) u (.one t)
  | itemMut {P R F u t} : D (.type P R F) u (.one t) →
      D (.item .arg P R F) (.amp :: .mut :: u) (.cons .mut t .nil)
  | itemAny {R F u t} : D (.type true R F) u (.one t) →
      D (.item .arg true R F) (.amp :: .quest :: u) (.cons .anyMut t .nil)
  /-- parser.lalrpop:501-503 -/
  | itemField {P R F u t s} : D (.type P R F) u (.one t) →
      D (.item .field P R F) (.name s :: .colon :: u) (.cons (.name s) t .nil)
  /-- parser.lalrpop:1548-1557 `Sep` -/
  | sepNil {k P R F} : D (.sep k P R F) [] .nil
  | sepLast {k P R F u v} : D (.item k P R F) u v → D (.sep k P R F) u v
  | sepCons {k P R F u v w vs} : D (.item k P R F) u v → D (.sep k P R F) w vs →
      D (.sep k P R F) (u ++ .comma :: w) (v.append vs)
  /-- parser.lalrpop:1559-1562 `Sep1` -/
  | sep1One {k P R F u v} : D (.item k P R F) u v → D (.sep1 k P R F) u v
  | sep1Trail {k P R F u v} : D (.item k P R F) u v → D (.sep1 k P R F) (u ++ [.comma]) v
  | sep1Cons {k P R F u v w vs} : D (.item k P R F) u v → D (.sep1 k P R F) w vs →
      D (.sep1 k P R F) (u ++ .comma :: w) (v.append vs)
  /-- parser.lalrpop:510-514 -/
  | altUnit {P R s} : D (.alt P true R) [.name s] (.cons (.name s) .unit .nil)
  | altTuple {P U R u ts s} : D (.sep .type P R true) u ts →
      D (.alt P U R) (.name s :: .lpar :: (u ++ [.rpar])) (.cons (.name s) (.tuple ts) .nil)
  | altRecord {P U u fs s} : D (.sep1 .field P false true) u fs →
      D (.alt P U true) (.name s :: .lbrc :: (u ++ [.rbrc])) (.cons (.name s) (.record fs) .nil)
  | altsOne {P R u v} : D (.alt P true R) u v → D (.alts P R) u v
  | altsCons {P R u v w vs} : D (.alt P true R) u v → D (.alts P R) w vs →
      D (.alts P R) (u ++ .bar :: w) (v.append vs)
  /-- parser.lalrpop:431-451 -/
  | retPlain {P F u r} : D (.type P false false) u (.one r) →
      D (.ret P F) (.arrow :: u) (.one (.fn .nil r (implicit P)))
  | retEffs {P u r w es} : D (.type P false false) u (.one r) → IsEffs w es →
      D (.ret P true) (.arrow :: (u ++ .bang :: w)) (.one (.fn .nil r (.names es)))

/-- Reading the text of a type in a program: `DefinedType` (parser.lalrpop:368-370). -/
def Reads (u : List Tok) (t : PTy) : Prop := D (.type false true true) u (.one t)

/-! ## Types -/

/-- Effects (effects.rs:22-70). -/
inductive Eff where
  | read
  | write
  | fallible
  | var (n : Nat)
  deriving DecidableEq, Repr

/-- The order in which the effects of a set are listed (effects.rs, `EffType::iter`): the three
primitive effects, then the variables. -/
def Eff.key : Eff → Nat
  | .read => 0
  | .write => 1
  | .fallible => 2
  | .var n => n + 3

/-- effects.rs `EffType::insert`; sets are lists in order without repetition (the canonical form
proved in C21). -/
def insertEff (e : Eff) : List Eff → List Eff
  | [] => [e]
  | f :: rest =>
    if e.key < f.key then e :: f :: rest
    else if e.key = f.key then f :: rest
    else f :: insertEff e rest

/-- A type definition: its module and its index there (`TypeDefId`). -/
structure Def where
  module : Nat
  index : Nat
  deriving DecidableEq, Repr

mutual
/-- type.rs `TypeKind`, as finite trees.  `array` is the type definition of arrays with one
argument, `unit` the native unit type. -/
inductive Ty where
  | var (n : Nat)
  | unit
  | native (b : Nat) (args : Tys)
  | variant (items : Tys)
  | tuple (items : Tys)
  | record (items : Tys)
  | fn (args : Tys) (ret : Ty) (effs : List Eff)
  | array (t : Ty)
  | named (d : Def) (args : Tys) (effs : List (List Eff))
  | never
/-- Lists of types with labels. -/
inductive Tys where
  | nil
  | cons (l : Lab) (t : Ty) (rest : Tys)
end

deriving instance DecidableEq for Ty, Tys
deriving instance Repr for Ty, Tys

/-- Number of elements. -/
def Tys.length : Tys → Nat
  | .nil => 0
  | .cons _ _ rest => rest.length + 1

/-- The element at an index, ignoring labels. -/
def Tys.get : Tys → Nat → Option Ty
  | .nil, _ => none
  | .cons _ t _, 0 => some t
  | .cons _ _ rest, n + 1 => rest.get n

/-! ## Display -/

/-- The names used for display: type variables and effect variables (type.rs:444-457), type
definitions (`try_type_def_name`, module_env.rs:773, the name without its module), native types
(`bare_native_name`, module_env.rs:669) and the types that have an alias (`type_alias_name`,
module_env.rs:587). -/
structure Names where
  var : Nat → String
  eff : Nat → String
  definition : Def → String
  native : Nat → List String
  alias : Ty → Option (List String)

/-- A path is written without marking raw identifiers (module_env.rs:587-606, type.rs:128-135,
2704: `write!(f, "{name}")`). -/
def pathText : List String → List Tok
  | [] => []
  | [s] => [lexIdent (.plain s)]
  | s :: rest => lexIdent (.plain s) :: .path :: pathText rest

/-- A written identifier (format.rs:57-63). -/
def ident (s : String) : Tok := lexIdent (writeIdent s)

/-- effects.rs:31-40, type.rs:1138, 1146: an effect. -/
def effText (N : Names) : Eff → Tok
  | .read => lexIdent (.plain "read")
  | .write => lexIdent (.plain "write")
  | .fallible => lexIdent (.plain "fallible")
  | .var n => ident (N.eff n)

/-- Effects separated by commas. -/
def effsText (N : Names) : List Eff → List Tok
  | [] => []
  | [e] => [effText N e]
  | e :: rest => effText N e :: .comma :: effsText N rest

/-- type.rs:1124-1149 `format_effect_binding_value_with_env`. -/
def bindingText (N : Names) : List Eff → List Tok
  | [e] => [effText N e]
  | es => .lpar :: (effsText N es ++ [.rpar])

/-- Several effect arguments separated by commas (type.rs:2729-2734). -/
def bindingsText (N : Names) : List (List Eff) → List Tok
  | [] => []
  | [e] => bindingText N e
  | e :: rest => bindingText N e ++ .comma :: bindingsText N rest

/-- type.rs:1174-1188 `format_function_effect_suffix_with_env`. -/
def suffixText (N : Names) (es : List Eff) : List Tok :=
  if es = [] then [] else .bang :: bindingText N es

/-- mutability.rs:117-129 `format_in_fn_arg`; a mutability variable is not displayed in a form the
grammar knows, `&?` stands for it. -/
def labText : Lab → List Tok
  | .mut => [.amp, .mut]
  | .anyMut => [.amp, .quest]
  | _ => []

/-- type.rs:1491-1493: the name of the alias, or else the text of the type itself. -/
def orAlias (N : Names) (t : Ty) (d : List Tok) : List Tok :=
  match N.alias t with
  | some p => pathText p
  | none => d

mutual
/-- type.rs:1486-1499 `fmt_type_with_env` and 2627-2743 `fmt_type_kind_with_env`. -/
def Ty.text (N : Names) : Ty → List Tok
  | .var n => orAlias N (.var n) [ident (N.var n)]
  -- the unit type is displayed by its alias `()` of the standard library (std/core.rs:61-65)
  | .unit => orAlias N .unit [.lpar, .rpar]
  | .native b args =>
    orAlias N (.native b args)
      (pathText (N.native b) ++
        (match args with
        | .nil => []
        | .cons l t rest => .lt :: (Tys.text N (.cons l t rest) ++ [.gt])))
  | .variant items => orAlias N (.variant items) (Tys.altsText N items)
  | .tuple items =>
    orAlias N (.tuple items)
      (.lpar :: (Tys.text N items ++ (if items.length = 1 then [.comma] else []) ++ [.rpar]))
  | .record items => orAlias N (.record items) (.lbrc :: (Tys.fieldsText N items ++ [.rbrc]))
  | .fn args ret effs =>
    orAlias N (.fn args ret effs)
      (.lpar :: (Tys.text N args ++ .rpar :: .arrow :: (Ty.text N ret ++ suffixText N effs)))
  | .array t => orAlias N (.array t) (.lbrk :: (Ty.text N t ++ [.rbrk]))
  | .named d args effs =>
    orAlias N (.named d args effs)
      (lexIdent (.plain (N.definition d)) ::
        (if args = .nil ∧ effs = [] then [] else
          .lt :: (Tys.text N args ++
            (if effs = [] then [] else .bang :: bindingsText N effs) ++ [.gt])))
  | .never => orAlias N .never [lexIdent (.plain "never")]
/-- Types or function arguments separated by commas (type.rs:2668-2676, 945-950, 289-294). -/
def Tys.text (N : Names) : Tys → List Tok
  | .nil => []
  | .cons l t .nil => labText l ++ Ty.text N t
  | .cons l t (.cons l' t' rest) =>
    labText l ++ Ty.text N t ++ .comma :: Tys.text N (.cons l' t' rest)
/-- Record fields separated by commas (type.rs:2679-2689). -/
def Tys.fieldsText (N : Names) : Tys → List Tok
  | .nil => []
  | .cons l t .nil =>
    (match l with | .name s => [ident s] | _ => []) ++ .colon :: Ty.text N t
  | .cons l t (.cons l' t' rest) =>
    (match l with | .name s => [ident s] | _ => []) ++
      .colon :: (Ty.text N t ++ .comma :: Tys.fieldsText N (.cons l' t' rest))
/-- Alternatives of a variant (type.rs:2639-2664). -/
def Tys.altsText (N : Names) : Tys → List Tok
  | .nil => []
  | .cons l t rest =>
    (match l with | .name s => [ident s] | _ => []) ++
      (match t with
      | .unit => []
      | .tuple (.cons _ x .nil) => .lpar :: (Ty.text N x ++ [.rpar])
      | t => Ty.text N t) ++
      (match rest with
      | .nil => []
      | .cons l' t' rest' => .bar :: Tys.altsText N (.cons l' t' rest'))
end

/-! ## From the syntax tree to the type -/

/-- desugar/types.rs:1450-1459 `ResolvedTypePath`. -/
inductive Res where
  | alias (params : Nat) (t : Ty)
  | definition (d : Def) (params effs : Nat)
  | native (b : Nat)

/-- Where names are looked up: type parameters, effect parameters and visible types
(`resolve_type_path`, desugar/types.rs:1461-1501). -/
structure Env where
  /-- The variable of the placeholder `_` (`next_free_generic_ty_var`, types.rs:1210-1216). -/
  hole : Nat
  tyParam : String → Option Nat
  effParam : String → Option Nat
  resolve : List String → Option Res

/-- desugar/mod.rs:90-98 with `primitive_effect_by_name`: an effect by its name. -/
def effNamed (E : Env) (s : String) : Option Eff :=
  if s = "read" then some .read
  else if s = "write" then some .write
  else if s = "fallible" then some .fallible
  else (E.effParam s).map .var

/-- desugar/mod.rs:86-101: the set of the named effects. -/
def effsNamed (E : Env) : List String → List Eff → Option (List Eff)
  | [], acc => some acc
  | s :: rest, acc => (effNamed E s).bind fun e => effsNamed E rest (insertEff e acc)

/-- desugar/mod.rs:78-103 `desugar_fn_effects`. -/
def toEffs (E : Env) : PEffs → Option (List Eff)
  | .pure => some []
  | .generic => some [.var 0]
  | .names es => effsNamed E es []

/-- desugar/types.rs:1535-1547 `desugar_effect_arguments`. -/
def toEffArgs (E : Env) : List String → Option (List (List Eff))
  | [] => some []
  | s :: rest => (effsNamed E [s] []).bind fun e => (toEffArgs E rest).map (e :: ·)


mutual
/-- `instantiate_type` for type parameters (desugar/types.rs:1609-1617). -/
def Ty.inst (args : Tys) : Ty → Ty
  | .var n => (args.get n).getD (.var n)
  | .unit => .unit
  | .native b ts => .native b (Tys.inst args ts)
  | .variant ts => .variant (Tys.inst args ts)
  | .tuple ts => .tuple (Tys.inst args ts)
  | .record ts => .record (Tys.inst args ts)
  | .fn ts r e => .fn (Tys.inst args ts) (Ty.inst args r) e
  | .array t => .array (Ty.inst args t)
  | .named d ts es => .named d (Tys.inst args ts) es
  | .never => .never
def Tys.inst (args : Tys) : Tys → Tys
  | .nil => .nil
  | .cons l t rest => .cons l (Ty.inst args t) (Tys.inst args rest)
end

/-- Insertion by name (type.rs:2565-2573 `normalize`, a stable sort). -/
def Tys.insertSorted (s : String) (t : Ty) : Tys → Tys
  | .nil => .cons (.name s) t .nil
  | .cons (.name s') t' rest =>
    if s' < s then .cons (.name s') t' (Tys.insertSorted s t rest)
    else .cons (.name s) t (.cons (.name s') t' rest)
  | ts => .cons (.name s) t ts

/-- type.rs:2565-2573: fields and alternatives in the order of their names. -/
def Tys.sort : Tys → Tys
  | .nil => .nil
  | .cons (.name s) t rest => Tys.insertSorted s t (Tys.sort rest)
  | .cons _ _ rest => Tys.sort rest

/-- type.rs:1228-1234 `Type::variant`. -/
def mkVariant : Tys → Ty
  | .nil => .never
  | ts => .variant ts.sort

/-- type.rs:1236-1242 `Type::tuple`. -/
def mkTuple : Tys → Ty
  | .nil => .unit
  | ts => .tuple ts

/-- desugar/types.rs:1567-1589 `desugar_resolved_type_without_args`. -/
def plainType : Res → Option Ty
  | .alias params t => if params = 0 then some t else none
  | .definition d params _ => if params = 0 then some (.named d .nil []) else none
  | .native b => some (.native b .nil)

/-- desugar/types.rs:1591-1638 `desugar_resolved_type_with_args`. -/
def appliedType (args : Tys) (effs : List (List Eff)) : Res → Option Ty
  | .alias params t =>
    if params = args.length ∧ effs = [] then some (t.inst args) else none
  | .definition d params n =>
    if params = args.length ∧ n = effs.length then some (.named d args effs) else none
  | .native b => if effs = [] then some (.native b args) else none

/-- desugar/types.rs:811-821, 953-962: a name of a variant must not be the name of a type. -/
def nameTaken (E : Env) (s : String) : Bool := (E.tyParam s).isSome || (E.resolve [s]).isSome

mutual
/-- desugar/types.rs:763-950 `desugar_with_ty_and_eff_params`. -/
def PTy.toTy (E : Env) : PTy → Option Ty
  | .unit => some .unit
  | .infer => some (.var E.hole)
  | .path p =>
    match p with
    | [s] =>
      match E.tyParam s with
      | some n => some (.var n)
      | none =>
        match E.resolve [s] with
        | some r => plainType r
        | none => some (mkVariant (.cons (.name s) .unit .nil))
    | p => (E.resolve p).bind plainType
  | .app p args effs =>
    (E.resolve p).bind fun r => (args.toTys E).bind fun as =>
      (toEffArgs E effs).bind fun es => appliedType as es r
  | .variant items => (items.toAlts E []).map mkVariant
  | .tuple items => (items.toTys E).map mkTuple
  | .record items => (items.toFields E []).map fun ts => .record ts.sort
  | .array t => (t.toTy E).map .array
  | .fn args ret effs =>
    (args.toTys E).bind fun as => (ret.toTy E).bind fun r => (toEffs E effs).map fun e => .fn as r e
/-- Elements one after the other. -/
def PTys.toTys (E : Env) : PTys → Option Tys
  | .nil => some .nil
  | .cons l t rest => (t.toTy E).bind fun a => (rest.toTys E).map (.cons l a ·)
/-- desugar/types.rs:860-895: fields, each name once. -/
def PTys.toFields (E : Env) (seen : List String) : PTys → Option Tys
  | .nil => some .nil
  | .cons l t rest =>
    match l with
    | .name s =>
      if s ∈ seen then none
      else (t.toTy E).bind fun a => (rest.toFields E (s :: seen)).map (.cons (.name s) a ·)
    | _ => none
/-- desugar/types.rs:793-841: alternatives, each name once and none the name of a type. -/
def PTys.toAlts (E : Env) (seen : List String) : PTys → Option Tys
  | .nil => some .nil
  | .cons l t rest =>
    match l with
    | .name s =>
      if s ∈ seen then none
      else if nameTaken E s then none
      else (t.toTy E).bind fun a => (rest.toAlts E (s :: seen)).map (.cons (.name s) a ·)
    | _ => none
end

end Ferlium.TypeText
