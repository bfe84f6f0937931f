import Verif.Proofs.TypeParse
import Mathlib.Data.String.Basic

/-!
# Displayed types read back

The class of types whose text reads back as the same type, and the proof that it does.
-/

namespace Ferlium.TypeText

/-! ## Specification -/

/-- Names that may be written without the mark of raw identifiers. -/
def PlainName (s : String) : Prop := s ∉ words ∧ s ≠ "mut" ∧ s ≠ "_"

/-- Names that are written correctly: all but four keywords that the list of keywords of the
printer lacks. -/
def GoodName (s : String) : Prop := s ∉ ["const", "ref", "subscript", "yield"]

/-- A path that reads as itself. -/
def GoodPath : List String → Prop
  | [] => False
  | s :: rest => PlainName s ∧ ∀ x ∈ rest, PlainName x ∨ x ∈ ["and", "or", "not"]

/-- A path that is not a type parameter. -/
def Unbound (E : Env) : List String → Prop
  | [s] => E.tyParam s = none
  | _ => True

/-- An effect whose name means it. -/
def EffGood (N : Names) (E : Env) : Eff → Prop
  | .var n => GoodName (N.eff n) ∧ N.eff n ∉ ["read", "write", "fallible"] ∧
      E.effParam (N.eff n) = some n
  | _ => True

/-- Effects in order, each once. -/
def Ordered : List Eff → Prop
  | [] => True
  | e :: rest => (∀ f ∈ rest, e.key < f.key) ∧ Ordered rest

/-- The names in a list of fields or alternatives. -/
def Tys.names : Tys → List String
  | .nil => []
  | .cons (.name s) _ rest => s :: rest.names
  | .cons _ _ rest => rest.names

/-- A displayed alias means the type; without alias the rest decides. -/
def AliasOr (N : Names) (E : Env) (t : Ty) (d : Prop) : Prop :=
  match N.alias t with
  | some p => GoodPath p ∧ Unbound E p ∧ E.resolve p = some (.alias 0 t)
  | none => d

/-- Labels of function arguments and of other elements. -/
def LabGood : Kind → Lab → Prop
  | .arg, l => l = .plain ∨ l = .mut
  | .type, l => l = .plain
  | .field, _ => False

mutual
/-- Types that can be read back, where record payloads are allowed (`R`) and where effects may
follow (`F`). -/
def Ty.Readable (N : Names) (E : Env) (R F : Bool) : Ty → Prop
  | .var n => AliasOr N E (.var n) (GoodName (N.var n) ∧ E.tyParam (N.var n) = some n)
  | .unit => AliasOr N E .unit True
  | .native b args => AliasOr N E (.native b args)
      (GoodPath (N.native b) ∧ (args = .nil → Unbound E (N.native b)) ∧
        E.resolve (N.native b) = some (.native b) ∧ args.Readable N E .type false false)
  | .variant items => AliasOr N E (.variant items)
      (items ≠ .nil ∧ items.names.Pairwise (· < ·) ∧ items.AltsReadable N E R)
  | .tuple items => AliasOr N E (.tuple items) (items ≠ .nil ∧ items.Readable N E .type R true)
  | .record items => AliasOr N E (.record items)
      (items.names.Pairwise (· < ·) ∧ items.FieldsReadable N E)
  | .fn args ret effs => AliasOr N E (.fn args ret effs)
      (args.Readable N E .arg R true ∧ ret.Readable N E false false ∧
        (F = false → effs = []) ∧ Ordered effs ∧ ∀ e ∈ effs, EffGood N E e)
  | .array t => AliasOr N E (.array t) (t.Readable N E false true)
  | .named d args effs => AliasOr N E (.named d args effs)
      (PlainName (N.definition d) ∧ (args = .nil → effs = [] → E.tyParam (N.definition d) = none) ∧
        E.resolve [N.definition d] = some (.definition d args.length effs.length) ∧
        args.Readable N E .type false false ∧ ∀ es ∈ effs, ∃ e, es = [e] ∧ EffGood N E e)
  | .never => AliasOr N E .never False
/-- Elements or arguments. -/
def Tys.Readable (N : Names) (E : Env) (k : Kind) (R F : Bool) : Tys → Prop
  | .nil => True
  | .cons l t rest => LabGood k l ∧ t.Readable N E R F ∧ rest.Readable N E k R F
/-- Record fields. -/
def Tys.FieldsReadable (N : Names) (E : Env) : Tys → Prop
  | .nil => True
  | .cons l t rest =>
    (∃ s, l = .name s ∧ GoodName s) ∧ t.Readable N E false true ∧ rest.FieldsReadable N E
/-- Alternatives: no payload, one or more components, or a record where that is allowed; a payload
with an alias name is displayed by that name, which cannot be read. -/
def Tys.AltsReadable (N : Names) (E : Env) (R : Bool) : Tys → Prop
  | .nil => True
  | .cons l t rest =>
    (∃ s, l = .name s ∧ GoodName s ∧ E.tyParam s = none ∧ E.resolve [s] = none) ∧
    (match t with
      | .unit => True
      | .tuple ts => ts ≠ .nil ∧ ts.Readable N E .type R true ∧
          (ts.length = 1 ∨ N.alias (.tuple ts) = none)
      | .record fs => R = true ∧ fs ≠ .nil ∧ N.alias (.record fs) = none ∧
          fs.names.Pairwise (· < ·) ∧ fs.FieldsReadable N E
      | _ => False) ∧
    rest.AltsReadable N E R
end

/-! ## Names -/

theorem lex_plain {s} (h : PlainName s) : lexIdent (.plain s) = .name s := by
  obtain ⟨h1, h2, h3⟩ := h
  simp [lexIdent, h1, h2, h3]

theorem words_known : ∀ w ∈ words, isKeyword w = true ∨ w ∈ ["const", "ref", "subscript", "yield"] := by
  decide

theorem ident_good {s} (h : GoodName s) : ident s = .name s := by
  unfold ident writeIdent
  split
  · rfl
  · rename_i hk
    refine lex_plain ⟨?_, ?_, ?_⟩
    · intro hw
      rcases words_known s hw with h1 | h1
      · exact hk h1
      · exact h h1
    · rintro rfl; exact hk rfl
    · rintro rfl; exact hk rfl

theorem words_path : ∀ w ∈ ["and", "or", "not"], lexIdent (.plain w) = .word w := by decide

theorem path_segs : ∀ {rest : List String},
    (∀ x ∈ rest, PlainName x ∨ x ∈ ["and", "or", "not"]) → ∃ u, Segs u rest ∧
      ∀ s : String, pathText (s :: rest) = lexIdent (.plain s) :: u
  | [], _ => ⟨[], .nil, fun _ => rfl⟩
  | x :: rest, h => by
    obtain ⟨u, hu, e⟩ := path_segs (rest := rest) fun y hy => h y (by simp [hy])
    refine ⟨.path :: lexIdent (.plain x) :: u, .cons ?_ hu, fun s => ?_⟩
    · rcases h x (by simp) with hx | hx
      · rw [lex_plain hx]; exact .name x
      · rw [words_path x hx]; exact .word hx
    · simp [pathText, e]

theorem path_good {p : List String} (h : GoodPath p) : IsPath (pathText p) p := by
  cases p with
  | nil => exact h.elim
  | cons s rest =>
    obtain ⟨u, hu, e⟩ := path_segs h.2
    rw [e, lex_plain h.1]
    exact .mk hu

/-! ## Effects -/

theorem effText_good {N E e} (h : EffGood N E e) :
    ∃ s, effText N e = .name s ∧ effNamed E s = some e := by
  cases e with
  | read => exact ⟨"read", (by decide : lexIdent (.plain "read") = .name "read"), rfl⟩
  | write => exact ⟨"write", (by decide : lexIdent (.plain "write") = .name "write"), rfl⟩
  | fallible => exact ⟨"fallible", (by decide : lexIdent (.plain "fallible") = .name "fallible"), rfl⟩
  | var n =>
    obtain ⟨h1, h2, h3⟩ := h
    simp only [List.mem_cons, List.not_mem_nil, or_false, not_or] at h2
    exact ⟨N.eff n, ident_good h1, by simp [effNamed, h2, h3]⟩

theorem insertEff_last : ∀ {acc : List Eff} {e : Eff}, (∀ f ∈ acc, f.key < e.key) →
    insertEff e acc = acc ++ [e]
  | [], _, _ => rfl
  | f :: acc, e, h => by
    have hf := h f (by simp)
    have ih := insertEff_last (acc := acc) (e := e) fun g hg => h g (by simp [hg])
    have h1 : ¬ e.key < f.key := by omega
    have h2 : ¬ e.key = f.key := by omega
    simp [insertEff, h1, h2, ih]

theorem effsText_good {N E} : ∀ {es : List Eff}, es ≠ [] → (∀ e ∈ es, EffGood N E e) →
    ∃ ss, IsNames (effsText N es) ss ∧ ∀ acc : List Eff, Ordered es →
      (∀ f ∈ acc, ∀ e ∈ es, f.key < e.key) → effsNamed E ss acc = some (acc ++ es)
  | [], h, _ => (h rfl).elim
  | [e], _, h => by
    obtain ⟨s, h1, h2⟩ := effText_good (h e (by simp))
    refine ⟨[s], ?_, fun acc _ ha => ?_⟩
    · simp only [effsText, h1]; exact .one s
    · have := insertEff_last (acc := acc) (e := e) fun f hf => ha f hf e (by simp)
      simp [effsNamed, h2, this]
  | e :: e' :: rest, _, h => by
    obtain ⟨s, h1, h2⟩ := effText_good (h e (by simp))
    obtain ⟨ss, hs, hn⟩ := effsText_good (es := e' :: rest) (by simp) fun f hf => h f (by simp [hf])
    refine ⟨s :: ss, ?_, fun acc ho ha => ?_⟩
    · simp only [effsText, h1]; exact .cons hs
    · have hi := insertEff_last (acc := acc) (e := e) fun f hf => ha f hf e (by simp)
      have := hn (acc ++ [e]) ho.2 (by
        intro f hf g hg
        rcases List.mem_append.mp hf with hf | hf
        · exact ha f hf g (by simp [hg])
        · simp only [List.mem_singleton] at hf
          subst hf
          exact ho.1 g hg)
      simp [effsNamed, h2, hi, this]

theorem bindingText_good {N E es} (hne : es ≠ []) (ho : Ordered es)
    (h : ∀ e ∈ es, EffGood N E e) :
    ∃ ss, IsEffs (bindingText N es) ss ∧ effsNamed E ss [] = some es := by
  obtain ⟨ss, hs, hn⟩ := effsText_good hne h
  have hn := hn [] ho (by simp)
  match es, hne with
  | [e], _ =>
    simp only [effsText] at hs
    simp only [bindingText]
    obtain ⟨s, h1, h2⟩ := effText_good (h e (by simp))
    rw [h1] at hs ⊢
    refine ⟨[s], .one s, ?_⟩
    simp [effsNamed, h2, insertEff]
  | e :: e' :: rest, _ => exact ⟨ss, .many hs, by simpa using hn⟩

theorem bindingsText_good {N E} : ∀ {effs : List (List Eff)}, effs ≠ [] →
    (∀ es ∈ effs, ∃ e, es = [e] ∧ EffGood N E e) →
    ∃ ss, IsNames (bindingsText N effs) ss ∧ toEffArgs E ss = some effs
  | [], h, _ => (h rfl).elim
  | [es], _, h => by
    obtain ⟨e, rfl, he⟩ := h es (by simp)
    obtain ⟨s, h1, h2⟩ := effText_good he
    refine ⟨[s], ?_, ?_⟩
    · simp only [bindingsText, bindingText, h1]; exact .one s
    · simp [toEffArgs, effsNamed, h2, insertEff]
  | es :: es' :: rest, _, h => by
    obtain ⟨e, rfl, he⟩ := h es (by simp)
    obtain ⟨s, h1, h2⟩ := effText_good he
    obtain ⟨ss, hs, hn⟩ := bindingsText_good (effs := es' :: rest) (by simp)
      fun x hx => h x (by simp [hx])
    refine ⟨s :: ss, ?_, ?_⟩
    · simp only [bindingsText, bindingText, h1]; exact .cons hs
    · simp [toEffArgs, effsNamed, h2, insertEff, hn]

/-! ## Order of names -/

/-- All labels are names. -/
def Tys.Named : Tys → Prop
  | .nil => True
  | .cons l _ rest => (∃ s, l = .name s) ∧ rest.Named

theorem sort_eq : ∀ {ts : Tys}, ts.Named → ts.names.Pairwise (· < ·) → ts.sort = ts
  | .nil, _, _ => rfl
  | .cons l t rest, hn, hp => by
    obtain ⟨⟨s, rfl⟩, hn⟩ := hn
    simp only [Tys.names, List.pairwise_cons] at hp
    rw [Tys.sort, sort_eq hn hp.2]
    match rest, hn with
    | .nil, _ => rfl
    | .cons l' t' rest', hn =>
      obtain ⟨⟨s', rfl⟩, _⟩ := hn
      have : s < s' := hp.1 s' (by simp [Tys.names])
      have h' : ¬ s' < s := fun h => absurd (lt_trans h this) (lt_irrefl _)
      simp [Tys.insertSorted, h']

theorem alts_named {N E R} : ∀ {ts : Tys}, ts.AltsReadable N E R → ts.Named
  | .nil, _ => trivial
  | .cons l t rest, h => by
    rw [Tys.AltsReadable.eq_def] at h
    obtain ⟨⟨s, hs, _⟩, _, h'⟩ := h
    exact ⟨⟨s, hs⟩, alts_named h'⟩

theorem fields_named {N E} : ∀ {ts : Tys}, ts.FieldsReadable N E → ts.Named
  | .nil, _ => trivial
  | .cons l t rest, h => by
    simp only [Tys.FieldsReadable] at h
    obtain ⟨⟨s, hs, _⟩, _, h⟩ := h
    exact ⟨⟨s, hs⟩, fields_named h⟩

/-! ## Reading back -/

/-- The text of `t` reads back as `t`. -/
def Back (E : Env) (R F : Bool) (u : List Tok) (t : Ty) : Prop :=
  ∃ a, D (.type false R F) u (.one a) ∧ a.toTy E = some t

theorem path_toTy {E p r t} (hu : Unbound E p) (hr : E.resolve p = some r)
    (ht : plainType r = some t) : (PTy.path p).toTy E = some t := by
  match p with
  | [] => simp [PTy.toTy, hr, ht]
  | [s] =>
    simp only [Unbound] at hu
    simp [PTy.toTy, hu, hr, ht]
  | s :: s' :: rest => simp [PTy.toTy, hr, ht]

theorem alias_or {N E R F t d u} (h : AliasOr N E t d) (hd : d → Back E R F u t) :
    Back E R F (orAlias N t u) t := by
  unfold AliasOr at h
  unfold orAlias
  split
  · rename_i p hp
    rw [hp] at h
    obtain ⟨h1, h2, h3⟩ := h
    exact ⟨_, .path (path_good h1), path_toTy h2 h3 (by simp [plainType])⟩
  · rename_i hp
    rw [hp] at h
    exact hd h

theorem sep1_sep {k P R F u v} (h : D (.sep1 k P R F) u v) : D (.sep k P R F) u v := by
  generalize hn : NT.sep1 k P R F = nt at h
  induction h <;> cases hn
  case sep1One h _ => exact .sepLast h
  case sep1Trail h _ =>
    obtain ⟨l, t, rfl⟩ := item_one h
    exact .sepCons h .sepNil
  case sep1Cons h _ _ ih => exact .sepCons h (ih rfl)

theorem item_lab {k R F l u a} (hl : LabGood k l) (h : D (.type false R F) u (.one a)) :
    D (.item k false R F) (labText l ++ u) (.cons l a .nil) := by
  cases k with
  | type => cases hl; exact .itemType h
  | arg =>
    rcases hl with rfl | rfl
    · exact .itemArg h
    · exact .itemMut h
  | field => exact hl.elim

theorem toTys_plain {E} : ∀ {as : PTys} {ts : Tys}, as.toTys E = some ts →
    ∀ {N R F}, ts.Readable N E .type R F → as.allPlain = true
  | .nil, _, _, _, _, _, _ => rfl
  | .cons l a as, ts, h, N, R, F, hr => by
    simp only [PTys.toTys, Option.bind_eq_some_iff, Option.map_eq_some_iff] at h
    obtain ⟨t, _, ts', h', rfl⟩ := h
    simp only [Tys.Readable, LabGood] at hr
    simp [PTys.allPlain, hr.1, toTys_plain h' hr.2.2]

/-- Elements without label are function arguments too. -/
theorem readable_arg {N E R F} : ∀ {ts : Tys}, ts.Readable N E .type R F → ts.Readable N E .arg R F
  | .nil, _ => by simp [Tys.Readable]
  | .cons l t rest, h => by
    simp only [Tys.Readable] at h ⊢
    exact ⟨.inl h.1, h.2.1, readable_arg h.2.2⟩

/-- The text of one alternative. -/
def altText (N : Names) (l : Lab) (t : Ty) : List Tok :=
  (match l with | .name s => [ident s] | _ => []) ++
    (match t with
    | .unit => []
    | .tuple (.cons _ x .nil) => .lpar :: (Ty.text N x ++ [.rpar])
    | t => Ty.text N t)

theorem altsText_one (N : Names) (l : Lab) (t : Ty) :
    Tys.altsText N (.cons l t .nil) = altText N l t := by
  rw [Tys.altsText.eq_def]
  simp [altText]
  rfl

theorem altsText_two (N : Names) (l l' : Lab) (t t' : Ty) (rest : Tys) :
    Tys.altsText N (.cons l t (.cons l' t' rest)) =
      altText N l t ++ .bar :: Tys.altsText N (.cons l' t' rest) := by
  rw [Tys.altsText.eq_def]
  rfl

/-- What the proof shows for one alternative. -/
def BackAlt (N : Names) (E : Env) (R : Bool) (s : String) (t : Ty) : Prop :=
  ∃ a, (∀ U, (U = true ∨ t ≠ .unit) →
      D (.alt false U R) (altText N (.name s) t) (.cons (.name s) a .nil)) ∧ a.toTy E = some t

/-- The condition on the payload of an alternative. -/
def Payload (N : Names) (E : Env) (R : Bool) (t : Ty) : Prop :=
  match t with
  | .unit => True
  | .tuple ts => ts ≠ .nil ∧ ts.Readable N E .type R true ∧
      (ts.length = 1 ∨ N.alias (.tuple ts) = none)
  | .record fs => R = true ∧ fs ≠ .nil ∧ N.alias (.record fs) = none ∧
      fs.names.Pairwise (· < ·) ∧ fs.FieldsReadable N E
  | _ => False

theorem alts_cons {N E R l t rest} (h : Tys.AltsReadable N E R (.cons l t rest)) :
    (∃ s, l = .name s ∧ GoodName s ∧ E.tyParam s = none ∧ E.resolve [s] = none) ∧
      Payload N E R t ∧ rest.AltsReadable N E R := by
  rw [Tys.AltsReadable.eq_def] at h
  exact h

theorem retRound {N E ret F effs} (h : Back E false false (Ty.text N ret) ret)
    (hF : F = false → effs = []) (ho : Ordered effs) (he : ∀ e ∈ effs, EffGood N E e) :
    ∃ r e, D (.ret false F) (.arrow :: (Ty.text N ret ++ suffixText N effs)) (.one (.fn .nil r e)) ∧
      r.toTy E = some ret ∧ toEffs E e = some effs := by
  obtain ⟨r, hd, ht⟩ := h
  by_cases hz : effs = []
  · subst hz
    refine ⟨r, implicit false, ?_, ht, rfl⟩
    simpa [suffixText] using D.retPlain (F := F) hd
  · obtain ⟨ss, hs, hn⟩ := bindingText_good hz ho he
    have : F = true := by
      cases F
      · exact (hz (hF rfl)).elim
      · rfl
    subst this
    refine ⟨r, .names ss, ?_, ht, hn⟩
    simpa [suffixText, hz] using D.retEffs hd hs

mutual
theorem Ty.round (N : Names) (E : Env) : ∀ (t : Ty) (R F : Bool), t.Readable N E R F →
    Back E R F (t.text N) t
  | .var n, R, F, h => by
    simp only [Ty.Readable] at h
    simp only [Ty.text]
    refine alias_or h fun h => ⟨.path [N.var n], ?_, by simp [PTy.toTy, h.2]⟩
    rw [ident_good h.1]
    exact .path (.mk .nil)
  | .unit, R, F, h => by
    simp only [Ty.Readable] at h
    simp only [Ty.text]
    exact alias_or h fun _ => ⟨.unit, .unit, by simp [PTy.toTy]⟩
  | .native b .nil, R, F, h => by
    simp only [Ty.Readable] at h
    simp only [Ty.text, List.append_nil]
    exact alias_or h fun h =>
      ⟨.path (N.native b), .path (path_good h.1), path_toTy (h.2.1 trivial) h.2.2.1 rfl⟩
  | .native b (.cons l t rest), R, F, h => by
    simp only [Ty.Readable] at h
    simp only [Ty.text]
    refine alias_or h fun h => ?_
    obtain ⟨as, hd, ht⟩ := Tys.round N E (.cons l t rest) .type false false h.2.2.2
    exact ⟨.app (N.native b) as [], .app (path_good h.1) (hd (by simp)),
      by simp [PTy.toTy, h.2.2.1, ht, toEffArgs, appliedType]⟩
  | .variant .nil, R, F, h => by
    simp only [Ty.Readable] at h
    simp only [Ty.text]
    exact alias_or h fun h => (h.1 rfl).elim
  | .variant (.cons l t .nil), R, F, h => by
    simp only [Ty.Readable] at h
    simp only [Ty.text, altsText_one]
    refine alias_or h fun h => ?_
    have hso := sort_eq (alts_named h.2.2) h.2.1
    obtain ⟨⟨s, rfl, hg, hty, hres⟩, hp, _⟩ := alts_cons h.2.2
    obtain ⟨a, hd, ht⟩ := Ty.altRound N E t R s hg hp
    by_cases htu : t = .unit
    · subst htu
      refine ⟨.path [s], ?_, ?_⟩
      · simp only [altText, ident_good hg]
        exact .path (.mk .nil)
      · simp [PTy.toTy, hty, hres, mkVariant, hso]
    · refine ⟨.variant (.cons (.name s) a .nil), .variant (hd false (.inr htu)), ?_⟩
      simp [PTy.toTy, PTys.toAlts, nameTaken, hty, hres, ht, mkVariant, hso]
  | .variant (.cons l t (.cons l' t' rest)), R, F, h => by
    simp only [Ty.Readable] at h
    simp only [Ty.text, altsText_two]
    refine alias_or h fun h => ?_
    have hso := sort_eq (alts_named h.2.2) h.2.1
    obtain ⟨⟨s, rfl, hg, hty, hres⟩, hp, hr⟩ := alts_cons h.2.2
    have hpw := h.2.1
    simp only [Tys.names, List.pairwise_cons] at hpw
    obtain ⟨a, hd, ht⟩ := Ty.altRound N E t R s hg hp
    obtain ⟨as, hds, hts⟩ := Tys.altsRound N E (.cons l' t' rest) R (by simp) hpw.2 hr
    have hts := hts [s] (by
      intro x hx hx'
      simp only [List.mem_singleton] at hx'
      subst hx'
      exact lt_irrefl _ (hpw.1 x hx))
    refine ⟨.variant (.cons (.name s) a as), .variants (hd true (.inl rfl)) hds, ?_⟩
    simp [PTy.toTy, PTys.toAlts, nameTaken, hty, hres, ht, hts, mkVariant, hso]
  | .tuple .nil, R, F, h => by
    simp only [Ty.Readable] at h
    simp only [Ty.text]
    exact alias_or h fun h => (h.1 rfl).elim
  | .tuple (.cons l t .nil), R, F, h => by
    simp only [Ty.Readable] at h
    simp only [Ty.text, Tys.text, Tys.length, Nat.zero_add, if_true]
    refine alias_or h fun h => ?_
    have h2 := h.2
    simp only [Tys.Readable, LabGood] at h2
    obtain ⟨rfl, hr, _⟩ := h2
    obtain ⟨a, hd, ht⟩ := Ty.round N E t R true hr
    refine ⟨.tuple (.cons .plain a .nil), ?_, by simp [PTy.toTy, PTys.toTys, ht, mkTuple]⟩
    have := D.tuple (F := F) (.itemArg hd) .sepNil rfl
    simpa [labText] using this
  | .tuple (.cons l t (.cons l' t' rest)), R, F, h => by
    simp only [Ty.Readable] at h
    simp only [Ty.text, Tys.text, Tys.length]
    refine alias_or h fun h => ?_
    have h2 := h.2
    rw [Tys.Readable] at h2
    obtain ⟨rfl, hr, hrest⟩ := h2
    obtain ⟨a, hd, ht⟩ := Ty.round N E t R true hr
    obtain ⟨as, hds, hts⟩ := Tys.round N E (.cons l' t' rest) .arg R true (readable_arg hrest)
    refine ⟨.tuple (.cons .plain a as), ?_, by simp [PTy.toTy, PTys.toTys, ht, hts, mkTuple]⟩
    have := D.tuple (F := F) (.itemArg hd) (sep1_sep (hds (by simp))) (toTys_plain hts hrest)
    simpa [labText] using this
  | .record .nil, R, F, h => by
    simp only [Ty.Readable] at h
    simp only [Ty.text, Tys.fieldsText]
    exact alias_or h fun h => ⟨.record .nil, .record0, by simp [PTy.toTy, PTys.toFields, Tys.sort]⟩
  | .record (.cons l t rest), R, F, h => by
    simp only [Ty.Readable] at h
    simp only [Ty.text]
    refine alias_or h fun h => ?_
    have hso := sort_eq (fields_named h.2) h.1
    obtain ⟨as, hd, ht⟩ := Tys.fieldsRound N E (.cons l t rest) (by simp) h.1 h.2
    exact ⟨.record as, .record hd, by simp [PTy.toTy, ht [] (by simp), hso]⟩
  | .fn .nil ret effs, R, F, h => by
    simp only [Ty.Readable] at h
    simp only [Ty.text, Tys.text]
    refine alias_or h fun h => ?_
    obtain ⟨_, hr, hF, ho, he⟩ := h
    obtain ⟨r, e, hd, ht, hE⟩ := retRound (F := F) (Ty.round N E ret false false hr) hF ho he
    refine ⟨.fn .nil r e, .fn0 hd, by simp [PTy.toTy, PTys.toTys, ht, hE]⟩
  | .fn (.cons l t .nil) ret effs, R, F, h => by
    simp only [Ty.Readable] at h
    simp only [Ty.text, Tys.text]
    refine alias_or h fun h => ?_
    obtain ⟨ha, hr, hF, ho, he⟩ := h
    simp only [Tys.Readable] at ha
    obtain ⟨r, e, hd, ht, hE⟩ := retRound (F := F) (Ty.round N E ret false false hr) hF ho he
    obtain ⟨a, hda, hta⟩ := Ty.round N E t R true ha.2.1
    exact ⟨.fn (.cons l a .nil) r e, .fn1 (item_lab ha.1 hda) hd,
      by simp [PTy.toTy, PTys.toTys, ht, hE, hta]⟩
  | .fn (.cons l t (.cons l' t' rest)) ret effs, R, F, h => by
    simp only [Ty.Readable] at h
    simp only [Ty.text, Tys.text]
    refine alias_or h fun h => ?_
    obtain ⟨ha, hr, hF, ho, he⟩ := h
    rw [Tys.Readable] at ha
    obtain ⟨r, e, hd, ht, hE⟩ := retRound (F := F) (Ty.round N E ret false false hr) hF ho he
    obtain ⟨a, hda, hta⟩ := Ty.round N E t R true ha.2.1
    obtain ⟨as, hds, hts⟩ := Tys.round N E (.cons l' t' rest) .arg R true ha.2.2
    refine ⟨.fn (.cons l a as) r e, ?_, by simp [PTy.toTy, PTys.toTys, ht, hE, hta, hts]⟩
    have := D.fnN (item_lab ha.1 hda) (sep1_sep (hds (by simp))) hd
    simpa [PTys.append] using this
  | .array t, R, F, h => by
    simp only [Ty.Readable] at h
    simp only [Ty.text]
    refine alias_or h fun h => ?_
    obtain ⟨a, hd, ht⟩ := Ty.round N E t false true h
    exact ⟨.array a, .array hd, by simp [PTy.toTy, ht]⟩
  | .named d .nil effs, R, F, h => by
    simp only [Ty.Readable] at h
    simp only [Ty.text, Tys.text]
    refine alias_or h fun h => ?_
    obtain ⟨hn, hu, hr, _, he⟩ := h
    rw [lex_plain hn]
    by_cases hz : effs = []
    · subst hz
      refine ⟨.path [N.definition d], ?_, path_toTy (hu trivial rfl) hr (by simp [plainType, Tys.length])⟩
      simpa using D.path (.mk .nil)
    · obtain ⟨ss, hs, hn⟩ := bindingsText_good hz he
      refine ⟨.app [N.definition d] .nil ss, ?_, ?_⟩
      · have := D.appEffs (P := false) (R := R) (F := F) (.mk (s := N.definition d) .nil) hs
        simpa [hz] using this
      · simp [PTy.toTy, hr, PTys.toTys, hn, appliedType]
  | .named d (.cons l t rest) effs, R, F, h => by
    simp only [Ty.Readable] at h
    simp only [Ty.text]
    refine alias_or h fun h => ?_
    obtain ⟨hn, hu, hr, ha, he⟩ := h
    rw [lex_plain hn]
    obtain ⟨as, hd, ht⟩ := Tys.round N E (.cons l t rest) .type false false ha
    have hd := hd (by simp)
    by_cases hz : effs = []
    · subst hz
      refine ⟨.app [N.definition d] as [], ?_, ?_⟩
      · have := D.app (P := false) (R := R) (F := F) (.mk (s := N.definition d) .nil) hd
        simpa using this
      · simp [PTy.toTy, hr, ht, toEffArgs, appliedType]
    · obtain ⟨ss, hs, hn⟩ := bindingsText_good hz he
      refine ⟨.app [N.definition d] as ss, ?_, ?_⟩
      · have := D.appBoth (P := false) (R := R) (F := F) (.mk (s := N.definition d) .nil) hd hs
        simpa [hz] using this
      · simp [PTy.toTy, hr, ht, hn, appliedType]
  | .never, R, F, h => by
    simp only [Ty.Readable] at h
    simp only [Ty.text]
    exact alias_or h fun h => h.elim
theorem Tys.round (N : Names) (E : Env) : ∀ (ts : Tys) (k : Kind) (R F : Bool),
    ts.Readable N E k R F →
    ∃ as, (ts ≠ .nil → D (.sep1 k false R F) (ts.text N) as) ∧ as.toTys E = some ts
  | .nil, _, _, _, _ => ⟨.nil, by simp, by simp [PTys.toTys]⟩
  | .cons l t .nil, k, R, F, h => by
    simp only [Tys.Readable] at h
    obtain ⟨a, hd, ht⟩ := Ty.round N E t R F h.2.1
    refine ⟨.cons l a .nil, fun _ => ?_, by simp [PTys.toTys, ht]⟩
    simp only [Tys.text]
    exact .sep1One (item_lab h.1 hd)
  | .cons l t (.cons l' t' rest), k, R, F, h => by
    rw [Tys.Readable] at h
    obtain ⟨a, hd, ht⟩ := Ty.round N E t R F h.2.1
    obtain ⟨as, hds, hts⟩ := Tys.round N E (.cons l' t' rest) k R F h.2.2
    refine ⟨.cons l a as, fun _ => ?_, by simp [PTys.toTys, ht, hts]⟩
    simp only [Tys.text]
    exact .sep1Cons (item_lab h.1 hd) (hds (by simp))
theorem Tys.fieldsRound (N : Names) (E : Env) : ∀ (ts : Tys), ts ≠ .nil →
    ts.names.Pairwise (· < ·) → ts.FieldsReadable N E →
    ∃ as, D (.sep1 .field false false true) (ts.fieldsText N) as ∧
      ∀ seen : List String, (∀ s ∈ ts.names, s ∉ seen) → as.toFields E seen = some ts
  | .nil, h, _, _ => (h rfl).elim
  | .cons l t .nil, _, _, h => by
    simp only [Tys.FieldsReadable] at h
    obtain ⟨⟨s, rfl, hg⟩, hr, _⟩ := h
    obtain ⟨a, hd, ht⟩ := Ty.round N E t false true hr
    refine ⟨.cons (.name s) a .nil, ?_, fun seen hs => ?_⟩
    · simp only [Tys.fieldsText, ident_good hg]
      exact .sep1One (.itemField hd)
    · have : s ∉ seen := hs s (by simp [Tys.names])
      simp [PTys.toFields, this, ht]
  | .cons l t (.cons l' t' rest), _, hp, h => by
    rw [Tys.FieldsReadable] at h
    obtain ⟨⟨s, rfl, hg⟩, hr, hrest⟩ := h
    simp only [Tys.names, List.pairwise_cons] at hp
    obtain ⟨a, hd, ht⟩ := Ty.round N E t false true hr
    obtain ⟨as, hds, hts⟩ := Tys.fieldsRound N E (.cons l' t' rest) (by simp) hp.2 hrest
    refine ⟨.cons (.name s) a as, ?_, fun seen hs => ?_⟩
    · simp only [Tys.fieldsText, ident_good hg]
      have := D.sep1Cons (.itemField (s := s) hd) hds
      simpa [PTys.append] using this
    · have h1 : s ∉ seen := hs s (by simp [Tys.names])
      have h2 := hts (s :: seen) (by
        intro x hx
        simp only [List.mem_cons, not_or]
        refine ⟨?_, hs x (by simp only [Tys.names]; exact List.mem_cons_of_mem _ hx)⟩
        rintro rfl
        exact lt_irrefl _ (hp.1 x hx))
      simp [PTys.toFields, h1, ht, h2]
theorem Ty.altRound (N : Names) (E : Env) : ∀ (t : Ty) (R : Bool) (s : String), GoodName s →
    Payload N E R t → BackAlt N E R s t
  | .unit, R, s, hg, _ => by
    refine ⟨.unit, fun U hU => ?_, by simp [PTy.toTy]⟩
    have : U = true := by simpa using hU
    subst this
    simp only [altText, ident_good hg]
    exact .altUnit
  | .tuple .nil, R, s, hg, h => (h.1 rfl).elim
  | .tuple (.cons l t .nil), R, s, hg, h => by
    have h2 := h.2.1
    simp only [Tys.Readable, LabGood] at h2
    obtain ⟨rfl, hr, _⟩ := h2
    obtain ⟨a, hd, ht⟩ := Ty.round N E t R true hr
    refine ⟨.tuple (.cons .plain a .nil), fun U _ => ?_, by simp [PTy.toTy, PTys.toTys, ht, mkTuple]⟩
    simp only [altText, ident_good hg]
    exact .altTuple (.sepLast (.itemType hd))
  | .tuple (.cons l t (.cons l' t' rest)), R, s, hg, h => by
    obtain ⟨_, hr, hl⟩ := h
    have hal : N.alias (.tuple (.cons l t (.cons l' t' rest))) = none := by
      rcases hl with hl | hl
      · simp [Tys.length] at hl
      · exact hl
    obtain ⟨as, hd, ht⟩ := Tys.round N E (.cons l t (.cons l' t' rest)) .type R true hr
    refine ⟨.tuple as, fun U _ => ?_, by simp [PTy.toTy, ht, mkTuple]⟩
    have := D.altTuple (U := U) (s := s) (sep1_sep (hd (by simp)))
    simpa [altText, ident_good hg, Ty.text, orAlias, hal, Tys.length] using this
  | .record .nil, R, s, hg, h => (h.2.1 rfl).elim
  | .record (.cons l t rest), R, s, hg, h => by
    obtain ⟨rfl, _, hal, hp, hf⟩ := h
    have hso := sort_eq (fields_named hf) hp
    obtain ⟨as, hd, ht⟩ := Tys.fieldsRound N E (.cons l t rest) (by simp) hp hf
    refine ⟨.record as, fun U _ => ?_, by simp [PTy.toTy, ht [] (by simp), hso]⟩
    have := D.altRecord (U := U) (s := s) hd
    simpa [altText, ident_good hg, Ty.text, orAlias, hal] using this
  | .var _, _, _, _, h => h.elim
  | .native _ _, _, _, _, h => h.elim
  | .variant _, _, _, _, h => h.elim
  | .fn _ _ _, _, _, _, h => h.elim
  | .array _, _, _, _, h => h.elim
  | .named _ _ _, _, _, _, h => h.elim
  | .never, _, _, _, h => h.elim
theorem Tys.altsRound (N : Names) (E : Env) : ∀ (ts : Tys) (R : Bool), ts ≠ .nil →
    ts.names.Pairwise (· < ·) → ts.AltsReadable N E R →
    ∃ as, D (.alts false R) (ts.altsText N) as ∧
      ∀ seen : List String, (∀ s ∈ ts.names, s ∉ seen) → as.toAlts E seen = some ts
  | .nil, _, h, _, _ => (h rfl).elim
  | .cons l t .nil, R, _, _, h => by
    obtain ⟨⟨s, rfl, hg, hty, hres⟩, hp, _⟩ := alts_cons h
    obtain ⟨a, hd, ht⟩ := Ty.altRound N E t R s hg hp
    refine ⟨.cons (.name s) a .nil, ?_, fun seen hs => ?_⟩
    · rw [altsText_one]
      exact .altsOne (hd true (.inl rfl))
    · have : s ∉ seen := hs s (by simp [Tys.names])
      simp [PTys.toAlts, this, ht, nameTaken, hty, hres]
  | .cons l t (.cons l' t' rest), R, _, hp, h => by
    obtain ⟨⟨s, rfl, hg, hty, hres⟩, hpl, hrest⟩ := alts_cons h
    simp only [Tys.names, List.pairwise_cons] at hp
    obtain ⟨a, hd, ht⟩ := Ty.altRound N E t R s hg hpl
    obtain ⟨as, hds, hts⟩ := Tys.altsRound N E (.cons l' t' rest) R (by simp) hp.2 hrest
    refine ⟨.cons (.name s) a as, ?_, fun seen hs => ?_⟩
    · rw [altsText_two]
      exact .altsCons (hd true (.inl rfl)) hds
    · have h1 : s ∉ seen := hs s (by simp [Tys.names])
      have h2 := hts (s :: seen) (by
        intro x hx
        simp only [List.mem_cons, not_or]
        refine ⟨?_, hs x (by simp only [Tys.names]; exact List.mem_cons_of_mem _ hx)⟩
        rintro rfl
        exact lt_irrefl _ (hp.1 x hx))
      simp [PTys.toAlts, h1, ht, h2, nameTaken, hty, hres]
end

end Ferlium.TypeText
