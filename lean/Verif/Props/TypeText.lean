import Verif.Proofs.TypeRound
import Verif.Proofs.TypeProper

/-!
C84: a displayed type, written into a program, is read as the same type.
-/
namespace Ferlium.TypeText

/-- **C84, partial.** The text of a type can be read as a type in exactly one way, and what is read is that type.  Partial: only
for types in the class `Readable`; the theorems below show that outside of it the property fails. -/
theorem C84_readback_partial (N : Names) (E : Env) (t : Ty) (h : t.Readable N E true true) :
    ∃ a, Reads (t.text N) a ∧ (∀ b, Reads (t.text N) b → b = a) ∧ a.toTy E = some t := by
  obtain ⟨a, hd, ht⟩ := Ty.round N E t true true h
  exact ⟨a, hd, fun b hb => D_unique hb hd, ht⟩

/-- Two such types with the same text are the same type: nothing that distinguishes them is hidden from the reader. -/
theorem C84_distinct_partial (N : Names) (E : Env) (t t' : Ty) (h : t.Readable N E true true)
    (h' : t'.Readable N E true true) (he : t.text N = t'.text N) : t = t' := by
  obtain ⟨a, ha, _, ht⟩ := C84_readback_partial N E t h
  obtain ⟨b, hb, hu, ht'⟩ := C84_readback_partial N E t' h'
  rw [he] at ha
  rw [hu a ha] at ht
  exact Option.some.inj (ht.symm.trans ht')

/-- The grammar of types is unambiguous, with and without placeholders, record payloads and effects: whatever text is read, it
is read in one way. -/
theorem C84_unambiguous (P R F : Bool) (u : List Tok) (a b : PTy) (ha : D (.type P R F) u (.one a))
    (hb : D (.type P R F) u (.one b)) : a = b :=
  D_unique ha hb

/-- Whatever is read is in normal form (`Ty.Proper`), if the aliases of the environment are: no tuple or variant is empty, the
fields of a record and the alternatives of a variant are in the order of their names, no name occurs twice, no alternative has
the name of a type, and the effects of a function are in their order, each once.  So equal types are read as the same value,
whatever the order of their parts in the text. -/
theorem C84_proper (E : Env) (ok : String → Prop) (a : PTy) (t : Ty)
    (hE : ∀ p n u, E.resolve p = some (.alias n u) → u.Proper ok)
    (hok : ∀ s, E.tyParam s = none → E.resolve [s] = none → ok s) (h : a.toTy E = some t) : t.Proper ok :=
  PTy.toTy_proper hE (fun s hs => by
    simp only [nameTaken, Bool.or_eq_false_iff] at hs
    exact hok s (by simpa using hs.1) (by simpa using hs.2)) a t h

/-! ### Examples and counterexamples -/

/-- No alias, one native type `int`, the type definitions `Pair` and `Box` (in two modules). -/
def exNames : Names where
  var n := if n = 0 then "T" else if n = 1 then "U" else "type"
  eff n := if n = 0 then "e" else "f"
  definition d := if d.index = 0 then "Pair" else "Box"
  native _ := ["int"]
  «alias» _ := none

/-- What these names mean: `Pair` has two parameters and one for effects, `Box` one parameter. -/
def exEnv : Env where
  hole := 9
  tyParam s := if s = "T" then some 0 else if s = "U" then some 1 else if s = "type" then some 2 else none
  effParam s := if s = "e" then some 0 else if s = "f" then some 1 else none
  resolve
    | ["int"] => some (.native 0)
    | ["Pair"] => some (.definition ⟨0, 0⟩ 2 1)
    | ["Box"] => some (.definition ⟨0, 1⟩ 1 0)
    | _ => none

abbrev int : Ty := .native 0 .nil

/-- A function type with every kind of part: a mutable tuple, a generic type with an effect argument, a variant with record
payload, a variable named by a keyword, arrays, nested functions and several effects. -/
def exTy : Ty :=
  .fn
    (.cons .mut (.tuple (.cons .plain (.var 0) (.cons .plain (.var 2) .nil)))
      (.cons .plain (.named ⟨0, 0⟩ (.cons .plain int (.cons .plain (.array (.var 1)) .nil)) [[.var 1]])
        (.cons .plain (.variant (.cons (.name "A") .unit
            (.cons (.name "B") (.tuple (.cons .plain (.fn .nil int [.read]) .nil))
              (.cons (.name "C") (.record (.cons (.name "x") int (.cons (.name "y") .unit .nil))) .nil)))) .nil)))
    (.fn (.cons .plain (.tuple (.cons .plain int .nil)) .nil) (.record .nil) [])
    [.write, .fallible, .var 0]

theorem exTy_readable : exTy.Readable exNames exEnv true true := by
  simp [exTy, Ty.Readable, Tys.Readable, Tys.FieldsReadable, Tys.AltsReadable, AliasOr, LabGood, exNames, exEnv, GoodName,
    PlainName, GoodPath, Unbound, EffGood, Ordered, Eff.key, Tys.names, Tys.length, words]
  have h1 : "A" < "B" := by decide
  have h2 : "A" < "C" := by decide
  have h3 : "B" < "C" := by decide
  have h4 : "x" < "y" := by decide
  exact ⟨⟨⟨by simpa using h1, by simpa using h2⟩, by simpa using h3⟩, by simpa using h4⟩

/-- Its text is read, and as itself. -/
example : ∃ a, Reads (exTy.text exNames) a ∧ a.toTy exEnv = some exTy := by
  obtain ⟨a, h, _, h'⟩ := C84_readback_partial exNames exEnv exTy exTy_readable
  exact ⟨a, h, h'⟩

/-- `mut` and `_` are no names. -/
example : lexIdent (.plain "mut") = .mut ∧ lexIdent (.plain "_") = .under ∧ lexIdent (.raw "mut") = .name "mut" := by decide

/-- The parts of a type can be written in any order, effects also several times; a repeated alternative and an alternative with the
name of a type are rejected, `()` written as an empty tuple is the unit type. -/
example : PTy.toTy exEnv (.fn (.cons .plain (.record (.cons (.name "y") (.path ["int"]) (.cons (.name "x") .unit .nil))) .nil)
      (.tuple .nil) (.names ["write", "read", "write"])) =
    some (.fn (.cons .plain (.record (.cons (.name "x") .unit (.cons (.name "y") int .nil))) .nil) .unit [.read, .write]) ∧
    PTy.toTy exEnv (.variant (.cons (.name "A") .unit (.cons (.name "A") .unit .nil))) = none ∧
    PTy.toTy exEnv (.variant (.cons (.name "A") .unit (.cons (.name "Box") .unit .nil))) = none := by decide

/-- The hypotheses of `C84_proper` hold for this environment, with the names that are no types. -/
example (a : PTy) (t : Ty) (h : a.toTy exEnv = some t) : t.Proper (fun s => s ≠ "T" ∧ s ≠ "U" ∧ s ≠ "int" ∧ s ≠ "Box") :=
  C84_proper exEnv _ a t
    (by intro p n u hp; simp only [exEnv] at hp; split at hp <;> simp at hp)
    (by
      intro s h1 h2
      refine ⟨?_, ?_, ?_, ?_⟩ <;> rintro rfl
      · exact absurd h1 (by decide)
      · exact absurd h1 (by decide)
      · exact absurd h2 (by decide)
      · exact absurd h2 (by decide)) h

/-- The name of the variable is marked: the text is not read by accident. -/
example : ident "type" = .name "type" ∧ lexIdent (.plain "type") = .word "type" := by decide

/-- A function that returns an effectful function, and one that has the effect itself. -/
def fnInner : Ty := .fn .nil (.fn .nil int [.read]) []
def fnOuter : Ty := .fn .nil (.fn .nil int []) [.read]

/-- **Violation.** The two have the same text, `() -> () -> int ! read`; it is read as the second.  A reader cannot tell whether
calling the function has the effect or only calling its result. -/
theorem C84_nested_violated :
    fnInner ≠ fnOuter ∧ fnInner.text exNames = fnOuter.text exNames ∧
      ∃ a, Reads (fnInner.text exNames) a ∧ a.toTy exEnv = some fnOuter ∧ a.toTy exEnv ≠ some fnInner := by
  have he : fnInner.text exNames = fnOuter.text exNames := by decide
  have hr : fnOuter.Readable exNames exEnv true true := by
    simp [fnOuter, Ty.Readable, Tys.Readable, AliasOr, exNames, exEnv, PlainName, GoodPath, Unbound, EffGood, Ordered,
      words]
  obtain ⟨a, h, _, h'⟩ := C84_readback_partial exNames exEnv fnOuter hr
  refine ⟨by decide, he, a, he ▸ h, h', ?_⟩
  rw [h']
  decide

/-- **Violation.** A function with effects as a type argument, `Box<() -> int ! read>`, is read as `Box` of a function without
effects, with the effect as an effect argument, which `Box` does not have: the type is refused. -/
theorem C84_argument_violated :
    ∃ a, Reads ((Ty.named ⟨0, 1⟩ (.cons .plain (.fn .nil int [.read]) .nil) []).text exNames) a ∧
      (∀ b, Reads ((Ty.named ⟨0, 1⟩ (.cons .plain (.fn .nil int [.read]) .nil) []).text exNames) b → b = a) ∧
      a.toTy exEnv = none := by
  have h : Reads ((Ty.named ⟨0, 1⟩ (.cons .plain (.fn .nil int [.read]) .nil) []).text exNames)
      (.app ["Box"] (.one (.fn .nil (.path ["int"]) .pure)) ["read"]) := by
    have e : (Ty.named ⟨0, 1⟩ (.cons .plain (.fn .nil int [.read]) .nil) []).text exNames =
        [.name "Box"] ++ .lt :: ([.lpar, .rpar, .arrow, .name "int"] ++ .bang :: ([.name "read"] ++ [.gt])) := by decide
    rw [e]
    exact .appBoth (.mk .nil) (.sep1One (.itemType (.fn0 (.retPlain (.path (.mk .nil)))))) (.one _)
  exact ⟨_, h, fun b hb => D_unique hb h, by decide⟩

/-- **Violation.** The type `never` is displayed by a name that means nothing; it is read as a variant with the single
alternative `never`. -/
theorem C84_never_violated : Reads (Ty.never.text exNames) (.path ["never"]) ∧
    (PTy.path ["never"]).toTy exEnv = some (.variant (.cons (.name "never") .unit .nil)) := by
  refine ⟨?_, by decide⟩
  have : Ty.never.text exNames = [.name "never"] := by decide
  rw [this]
  exact .path (.mk .nil)

/-- What no amount of reading finds cannot be derived. -/
theorem unreadable {u : List Tok} (h : ∀ n, parse (n + 20) (.type false true true) u = none) (a : PTy) : ¬ Reads u a := by
  intro hr
  obtain ⟨N, hN⟩ := parse_complete hr [] trivial
  have := hN (N + 20) (by omega)
  rw [List.append_nil, h N] at this
  cases this

/-- **Violation.** A variant with a record payload cannot be read inside an array (nor a record, a return type or a type
argument): `[A { x: int }]`. -/
theorem C84_payload_violated (a : PTy) :
    ¬ Reads ((Ty.array (.variant (.cons (.name "A") (.record (.cons (.name "x") int .nil)) .nil))).text exNames) a :=
  unreadable (fun _ => rfl) a

/-- Alone it can. -/
example : ∃ a, Reads ((Ty.variant (.cons (.name "A") (.record (.cons (.name "x") int .nil)) .nil)).text exNames) a ∧
    a.toTy exEnv = some (.variant (.cons (.name "A") (.record (.cons (.name "x") int .nil)) .nil)) := by
  obtain ⟨a, h, _, h'⟩ := C84_readback_partial exNames exEnv
    (.variant (.cons (.name "A") (.record (.cons (.name "x") int .nil)) .nil)) (by
      simp [Ty.Readable, Tys.Readable, Tys.FieldsReadable, Tys.AltsReadable, AliasOr, exNames, exEnv, GoodName,
        PlainName, GoodPath, Unbound, Tys.names, words])
  exact ⟨a, h, h'⟩

/-- **Violation.** An empty record as payload cannot be read: `A { }`. -/
theorem C84_empty_violated (a : PTy) :
    ¬ Reads ((Ty.variant (.cons (.name "A") (.record .nil) .nil)).text exNames) a :=
  unreadable (fun _ => rfl) a

/-- **Violation.** A field whose name is one of the keywords `const`, `ref`, `subscript` and `yield` is displayed without the mark
of raw identifiers: `{ ref: int }`. -/
theorem C84_keyword_violated (s : String) (hs : s ∈ ["const", "ref", "subscript", "yield"]) (a : PTy) :
    ¬ Reads ((Ty.record (.cons (.name s) int .nil)).text exNames) a := by
  simp only [List.mem_cons, List.not_mem_nil, or_false] at hs
  have : ∀ s, (s = "const" ∨ s = "ref" ∨ s = "subscript" ∨ s = "yield") → (Ty.record (.cons (.name s) int .nil)).text exNames =
      [.lbrc, .word s, .colon, .name "int", .rbrc] := by
    rintro s (rfl | rfl | rfl | rfl) <;> decide
  rw [this s hs]
  exact unreadable (fun _ => rfl) a

/-- **Violation.** A type definition named by a keyword (`struct r#type`) is displayed without the mark of
raw identifiers whatever the keyword. -/
theorem C84_definition_violated (a : PTy) :
    ¬ Reads ((Ty.named ⟨0, 0⟩ .nil []).text { exNames with definition := fun _ => "type" }) a := by
  have : (Ty.named ⟨0, 0⟩ .nil []).text { exNames with definition := fun _ => "type" } = [.word "type"] := by decide
  rw [this]
  exact unreadable (fun _ => rfl) a

/-- **Violation.** A payload of two components whose type has an alias is displayed by the alias, which is not a payload:
`A P` for `A (int, int)` with `type P = (int, int)`. -/
theorem C84_alias_violated (a : PTy) :
    ¬ Reads ((Ty.variant (.cons (.name "A") (.tuple (.cons .plain int (.cons .plain int .nil))) .nil)).text
      { exNames with «alias» := fun t => if t = .tuple (.cons .plain int (.cons .plain int .nil)) then some ["P"] else none }) a := by
  have : (Ty.variant (.cons (.name "A") (.tuple (.cons .plain int (.cons .plain int .nil))) .nil)).text
      { exNames with «alias» := fun t => if t = .tuple (.cons .plain int (.cons .plain int .nil)) then some ["P"] else none } =
      [.name "A", .name "P"] := by decide
  rw [this]
  intro hr
  obtain ⟨N, hN⟩ := parse_complete hr [] trivial
  have := hN (N + 20) (by omega)
  have e : parse (N + 20) (.type false true true) [.name "A", .name "P"] = some (.one (.path ["A"]), [.name "P"]) := rfl
  rw [List.append_nil, e] at this
  simp at this

/-- **Violation.** An effect argument without effects, or with several, cannot be read: `Pair<int, int ! ()>` and
`Pair<int, int ! (read, write)>`. -/
theorem C84_effects_violated (es : List Eff) (hs : es = [] ∨ es = [.read, .write]) (a : PTy) :
    ¬ Reads ((Ty.named ⟨0, 0⟩ (.cons .plain int (.cons .plain int .nil)) [es]).text exNames) a := by
  rcases hs with rfl | rfl <;> exact unreadable (fun _ => rfl) a

/-- **Violation.** Type definitions of the same name in different modules have the same text, which is read as one of them. -/
theorem C84_module_violated : (Ty.named ⟨0, 1⟩ (.cons .plain int .nil) []).text exNames =
      (Ty.named ⟨1, 1⟩ (.cons .plain int .nil) []).text exNames ∧
    ∃ a, Reads ((Ty.named ⟨1, 1⟩ (.cons .plain int .nil) []).text exNames) a ∧
      a.toTy exEnv = some (.named ⟨0, 1⟩ (.cons .plain int .nil) []) := by
  have e : (Ty.named ⟨0, 1⟩ (.cons .plain int .nil) []).text exNames =
      (Ty.named ⟨1, 1⟩ (.cons .plain int .nil) []).text exNames := by decide
  obtain ⟨a, h, _, h'⟩ := C84_readback_partial exNames exEnv (.named ⟨0, 1⟩ (.cons .plain int .nil) []) (by
    simp [Ty.Readable, Tys.Readable, AliasOr, LabGood, exNames, exEnv, PlainName, GoodPath, Unbound, Tys.length, words])
  exact ⟨e, a, e ▸ h, h'⟩

end Ferlium.TypeText
