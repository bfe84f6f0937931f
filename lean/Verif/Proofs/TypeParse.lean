import Verif.Model.TypeText

/-!
# The grammar of types is unambiguous

A deterministic parser, used as a proof device only: whatever the grammar derives, the parser
finds.  As the parser is a function, the grammar is unambiguous.
-/

namespace Ferlium.TypeText

/-- Tokens that may follow a type. -/
def closes : Tok → Bool
  | .rbrk | .rbrc | .comma | .rpar | .gt | .bang => true
  | _ => false

def readSegs : List Tok → List String × List Tok
  | .path :: .name s :: ts => (s :: (readSegs ts).1, (readSegs ts).2)
  | .path :: .word s :: ts => (s :: (readSegs ts).1, (readSegs ts).2)
  | ts => ([], ts)

def readNames : List Tok → Option (List String × List Tok)
  | .name s :: .comma :: .name s' :: ts =>
    (readNames (.name s' :: ts)).map fun r => (s :: r.1, r.2)
  | .name s :: .comma :: ts => some ([s], ts)
  | .name s :: ts => some ([s], ts)
  | _ => none

def readEffs : List Tok → Option (List String × List Tok)
  | .lpar :: .rpar :: ts => some ([], ts)
  | .lpar :: ts =>
    match readNames ts with
    | some (es, .rpar :: rest) => some (es, rest)
    | _ => none
  | .name s :: ts => some ([s], ts)
  | _ => none

/-- After a name: does an alternative of a variant start here? -/
def altAhead (R : Bool) : List Tok → Bool
  | .lpar :: _ => true
  | .lbrc :: _ => R
  | .bar :: _ => true
  | _ => false

def asFn (v : PTys) : PTys → PTys
  | .cons _ (.fn _ r e) _ => .one (.fn v r e)
  | ts => ts

def parse : Nat → NT → List Tok → Option (PTys × List Tok)
  | 0, _, _ => none
  | n + 1, .type P R F, ts =>
    match ts with
    | .under :: ts => if P then some (.one .infer, ts) else none
    | .lbrk :: ts =>
      match parse n (.type P false true) ts with
      | some (.cons _ t _, .rbrk :: rest) => some (.one (.array t), rest)
      | _ => none
    | .lbrc :: .rbrc :: ts => some (.one (.record .nil), ts)
    | .lbrc :: ts =>
      match parse n (.sep1 .field P false true) ts with
      | some (fs, .rbrc :: rest) => some (.one (.record fs), rest)
      | _ => none
    | .lpar :: .rpar :: .arrow :: ts => parse n (.ret P F) (.arrow :: ts)
    | .lpar :: .rpar :: ts => some (.one .unit, ts)
    | .lpar :: ts =>
      match parse n (.item .arg P R true) ts with
      | some (v, .rpar :: .arrow :: rest) =>
        (parse n (.ret P F) (.arrow :: rest)).map fun r => (asFn v r.1, r.2)
      | some (v, .rpar :: rest) => if v.allPlain then some (v, rest) else none
      | some (v, .comma :: rest) =>
        match parse n (.sep .arg P R true) rest with
        | some (vs, .rpar :: .arrow :: rest') =>
          (parse n (.ret P F) (.arrow :: rest')).map fun r => (asFn (v.append vs) r.1, r.2)
        | some (vs, .rpar :: rest') =>
          if v.allPlain && vs.allPlain then some (.one (.tuple (v.append vs)), rest') else none
        | _ => none
      | _ => none
    | .name s :: ts =>
      if altAhead R ts then
        (parse n (.alts P R) (.name s :: ts)).map fun r => (.one (.variant r.1), r.2)
      else
        match (readSegs ts).2 with
        | .lt :: .bang :: rest =>
          match readNames rest with
          | some (es, .gt :: rest') => some (.one (.app (s :: (readSegs ts).1) .nil es), rest')
          | _ => none
        | .lt :: rest =>
          match parse n (.sep1 .type P false false) rest with
          | some (as, .gt :: rest') => some (.one (.app (s :: (readSegs ts).1) as []), rest')
          | some (as, .bang :: rest') =>
            match readNames rest' with
            | some (es, .gt :: rest'') => some (.one (.app (s :: (readSegs ts).1) as es), rest'')
            | _ => none
          | _ => none
        | rest => some (.one (.path (s :: (readSegs ts).1)), rest)
    | _ => none
  | n + 1, .item .type P R F, ts => parse n (.type P R F) ts
  | n + 1, .item .arg P R F, ts =>
    match ts with
    | .amp :: .mut :: ts =>
      match parse n (.type P R F) ts with
      | some (.cons _ t _, rest) => some (.cons .mut t .nil, rest)
      | _ => none
    | .amp :: .quest :: ts =>
      if P then
        match parse n (.type P R F) ts with
        | some (.cons _ t _, rest) => some (.cons .anyMut t .nil, rest)
        | _ => none
      else none
    | ts => parse n (.type P R F) ts
  | n + 1, .item .field P R F, ts =>
    match ts with
    | .name s :: .colon :: ts =>
      match parse n (.type P R F) ts with
      | some (.cons _ t _, rest) => some (.cons (.name s) t .nil, rest)
      | _ => none
    | _ => none
  | n + 1, .sep k P R F, ts =>
    match ts with
    | .rpar :: ts => some (.nil, .rpar :: ts)
    | ts =>
      match parse n (.item k P R F) ts with
      | some (v, .comma :: rest) =>
        (parse n (.sep k P R F) rest).map fun r => (v.append r.1, r.2)
      | r => r
  | n + 1, .sep1 k P R F, ts =>
    match parse n (.item k P R F) ts with
    | some (v, .comma :: a :: rest) =>
      if closes a then some (v, a :: rest)
      else (parse n (.sep1 k P R F) (a :: rest)).map fun r => (v.append r.1, r.2)
    | r => r
  | n + 1, .alt P U R, ts =>
    match ts with
    | .name s :: .lpar :: ts =>
      match parse n (.sep .type P R true) ts with
      | some (as, .rpar :: rest) => some (.cons (.name s) (.tuple as) .nil, rest)
      | _ => none
    | .name s :: .lbrc :: ts =>
      if R then
        match parse n (.sep1 .field P false true) ts with
        | some (fs, .rbrc :: rest) => some (.cons (.name s) (.record fs) .nil, rest)
        | _ => none
      else none
    | .name s :: ts => if U then some (.cons (.name s) .unit .nil, ts) else none
    | _ => none
  | n + 1, .alts P R, ts =>
    match parse n (.alt P true R) ts with
    | some (v, .bar :: rest) => (parse n (.alts P R) rest).map fun r => (v.append r.1, r.2)
    | r => r
  | n + 1, .ret P F, ts =>
    match ts with
    | .arrow :: ts =>
      match parse n (.type P false false) ts with
      | some (.cons _ t _, .bang :: rest) =>
        if F then
          (readEffs rest).map fun r => (.one (.fn .nil t (.names r.1)), r.2)
        else some (.one (.fn .nil t (implicit P)), .bang :: rest)
      | some (.cons _ t _, rest) => some (.one (.fn .nil t (implicit P)), rest)
      | _ => none
    | _ => none

/-- What may follow a phrase. -/
def Stop : NT → List Tok → Prop
  | .sep _ _ _ _, [] => False
  | .sep1 _ _ _ _, [] => False
  | _, [] => True
  | .type _ _ F, a :: _ => closes a = true ∧ (F = true → a ≠ .bang)
  | .item _ _ _ F, a :: _ => closes a = true ∧ (F = true → a ≠ .bang)
  | .sep _ _ _ _, a :: _ => a = .rpar
  | .sep1 _ _ _ F, a :: _ => a = .rbrc ∨ a = .gt ∨ (a = .bang ∧ F = false)
  | .alt _ _ _, a :: _ => closes a = true ∨ a = .bar
  | .alts _ _, a :: _ => closes a = true
  | .ret _ F, a :: _ => closes a = true ∧ (F = true → a ≠ .bang)

/-! ## First tokens -/

/-- The phrases that are not lists start with a token that closes nothing. -/
theorem first {nt u v} (h : D nt u v) :
    (∃ P R F, nt = .type P R F ∨ ∃ k, nt = .item k P R F ∨ nt = .sep1 k P R F) →
    ∃ a w, u = a :: w ∧ closes a = false := by
  induction h <;> intro hh <;> simp at hh
  all_goals first
    | exact ⟨_, _, rfl, rfl⟩
    | skip
  case variant h ih => 
    cases h <;> exact ⟨_, _, rfl, rfl⟩
  case variants h _ _ _ => 
    cases h <;> exact ⟨_, _, rfl, rfl⟩
  case path h => cases h; exact ⟨_, _, rfl, rfl⟩
  case app h _ _ => cases h; exact ⟨_, _, rfl, rfl⟩
  case appBoth h _ _ _ => cases h; exact ⟨_, _, rfl, rfl⟩
  case appEffs h _ => cases h; exact ⟨_, _, rfl, rfl⟩
  case itemType ih => exact ih ⟨_, _, _, .inl rfl⟩
  case itemArg ih => exact ih ⟨_, _, _, .inl rfl⟩
  case sep1One ih => exact ih ⟨_, _, _, .inr ⟨_, .inl rfl⟩⟩
  case sep1Trail ih =>
    obtain ⟨a, w, rfl, h⟩ := ih ⟨_, _, _, .inr ⟨_, .inl rfl⟩⟩
    exact ⟨a, _, rfl, h⟩
  case sep1Cons ih _ =>
    obtain ⟨a, w, rfl, h⟩ := ih ⟨_, _, _, .inr ⟨_, .inl rfl⟩⟩
    exact ⟨a, _, rfl, h⟩

/-- A phrase for a single type has a value without label. -/
theorem type_one {nt u v} (h : D nt u v) :
    (∃ P R F, nt = .type P R F) → ∃ t, v = .one t := by
  intro hh
  obtain ⟨P, R, F, rfl⟩ := hh
  cases h <;> exact ⟨_, rfl⟩

theorem ret_one {P F u v} (h : D (.ret P F) u v) : ∃ r e, v = .one (.fn .nil r e) := by
  cases h <;> exact ⟨_, _, rfl⟩

theorem ret_arrow {P F u v} (h : D (.ret P F) u v) : ∃ w, u = .arrow :: w := by
  cases h <;> exact ⟨_, rfl⟩

/-- How an alternative starts. -/
theorem alt_first {P U R u v} (h : D (.alt P U R) u v) :
    ∃ s w, u = .name s :: w ∧
      ((U = true ∧ w = []) ∨ (∃ x, w = .lpar :: x) ∨ (R = true ∧ ∃ x, w = .lbrc :: x)) := by
  cases h with
  | altUnit => exact ⟨_, _, rfl, .inl ⟨rfl, rfl⟩⟩
  | altTuple => exact ⟨_, _, rfl, .inr (.inl ⟨_, rfl⟩)⟩
  | altRecord => exact ⟨_, _, rfl, .inr (.inr ⟨rfl, _, rfl⟩)⟩

/-! ## Paths and effects -/

/-- What may follow a path. -/
def Tail : List Tok → Prop
  | .path :: _ => False
  | _ => True

theorem readSegs_tail {rest : List Tok} (h : Tail rest) : readSegs rest = ([], rest) := by
  unfold readSegs
  split
  · exact h.elim
  · exact h.elim
  · rfl

theorem readSegs_segs {u p} (h : Segs u p) {rest : List Tok} (hr : Tail rest) :
    readSegs (u ++ rest) = (p, rest) := by
  induction h with
  | nil => simpa using readSegs_tail hr
  | cons h _ ih => cases h <;> simp [readSegs, ih]

theorem readNames_names {u es} (h : IsNames u es) (rest : List Tok)
    (hr : ∀ s ts, rest ≠ .name s :: ts ∧ rest ≠ .comma :: ts) :
    readNames (u ++ rest) = some (es, rest) := by
  induction h with
  | one s =>
    match rest, hr with
    | [], _ => rfl
    | a :: rest, hr =>
      have := (hr "" rest).2
      cases a <;> first | rfl | simp_all
  | trail s =>
    match rest, hr with
    | [], _ => rfl
    | a :: rest, hr =>
      cases a with
      | name s' => exact ((hr s' rest).1 rfl).elim
      | _ => rfl
  | cons h ih =>
    cases h <;> simp [readNames] at ih ⊢ <;> simp [ih]

theorem readEffs_effs {u es} (h : IsEffs u es) (rest : List Tok) :
    readEffs (u ++ rest) = some (es, rest) := by
  cases h with
  | none => rfl
  | one => rfl
  | many h =>
    have := readNames_names h (.rpar :: rest) (by simp)
    cases h <;> simp_all [readEffs]

/-! ## The parser finds what the grammar derives -/

/-- With enough fuel. -/
def Finds (nt : NT) (ts : List Tok) (r : PTys × List Tok) : Prop :=
  ∃ N, ∀ n, N ≤ n → parse n nt ts = some r

theorem Finds.mk {nt ts r} (N : Nat) (h : ∀ n, N ≤ n → parse (n + 1) nt ts = some r) :
    Finds nt ts r :=
  ⟨N + 1, fun n hn => by
    obtain ⟨m, rfl⟩ : ∃ m, n = m + 1 := ⟨n - 1, by omega⟩
    exact h m (by omega)⟩

theorem append_one (l : Lab) (t : PTy) (vs : PTys) :
    (PTys.cons l t .nil).append vs = .cons l t vs := rfl

theorem item_one {k P R F u v} (h : D (.item k P R F) u v) : ∃ l t, v = .cons l t .nil := by
  cases h <;> exact ⟨_, _, rfl⟩

theorem alt_one {P U R u v} (h : D (.alt P U R) u v) : ∃ l t, v = .cons l t .nil := by
  cases h <;> exact ⟨_, _, rfl⟩

/-- An opening parenthesis that is not closed at once. -/
theorem parse_lpar (n : Nat) (P R F : Bool) {a : Tok} (ha : closes a = false) (ts : List Tok) :
    parse (n + 1) (.type P R F) (.lpar :: a :: ts) =
      (match parse n (.item .arg P R true) (a :: ts) with
      | some (v, .rpar :: .arrow :: rest) =>
        (parse n (.ret P F) (.arrow :: rest)).map fun r => (asFn v r.1, r.2)
      | some (v, .rpar :: rest) => if v.allPlain then some (v, rest) else none
      | some (v, .comma :: rest) =>
        match parse n (.sep .arg P R true) rest with
        | some (vs, .rpar :: .arrow :: rest') =>
          (parse n (.ret P F) (.arrow :: rest')).map fun r => (asFn (v.append vs) r.1, r.2)
        | some (vs, .rpar :: rest') =>
          if v.allPlain && vs.allPlain then some (.one (.tuple (v.append vs)), rest') else none
        | _ => none
      | _ => none) := by
  cases a <;> first | rfl | simp [closes] at ha

theorem parse_lbrc (n : Nat) (P R F : Bool) {a : Tok} (ha : closes a = false) (ts : List Tok) :
    parse (n + 1) (.type P R F) (.lbrc :: a :: ts) =
      (match parse n (.sep1 .field P false true) (a :: ts) with
      | some (fs, .rbrc :: rest) => some (.one (.record fs), rest)
      | _ => none) := by
  cases a <;> first | rfl | simp [closes] at ha

theorem parse_sep (n : Nat) (k : Kind) (P R F : Bool) {a : Tok} (ha : closes a = false)
    (ts : List Tok) :
    parse (n + 1) (.sep k P R F) (a :: ts) =
      (match parse n (.item k P R F) (a :: ts) with
      | some (v, .comma :: rest) =>
        (parse n (.sep k P R F) rest).map fun r => (v.append r.1, r.2)
      | r => r) := by
  cases a <;> first | rfl | simp [closes] at ha

theorem parse_arg (n : Nat) (P R F : Bool) {ts : List Tok} (ha : ∀ w, ts ≠ .amp :: w) :
    parse (n + 1) (.item .arg P R F) ts = parse n (.type P R F) ts := by
  match ts, ha with
  | [], _ => rfl
  | a :: ts, ha => cases a <;> first | rfl | exact (ha _ rfl).elim

theorem type_no_amp {P R F u v} (h : D (.type P R F) u v) (w : List Tok) : u ≠ .amp :: w := by
  intro e
  subst e
  generalize hx : Tok.amp :: w = x at h
  cases h
  case variant h => cases h <;> simp at hx
  case variants h _ => cases h <;> simp at hx
  case path h => cases h; simp at hx
  case app h _ => cases h; simp at hx
  case appBoth h _ _ => cases h; simp at hx
  case appEffs h _ => cases h; simp at hx
  all_goals simp at hx

theorem Stop.tail {P R F rest} (h : Stop (.type P R F) rest) : Tail rest := by
  cases rest with
  | nil => trivial
  | cons a rest => cases a <;> first | trivial | simp [Stop, closes] at h

theorem altAhead_stop {P R F rest} (h : Stop (.type P R F) rest) (R' : Bool) :
    altAhead R' rest = false := by
  cases rest with
  | nil => rfl
  | cons a rest => cases a <;> first | rfl | simp [Stop, closes] at h

/-- A name that does not start an alternative starts a path. -/
theorem parse_path (n : Nat) (P R F : Bool) (s : String) {ts : List Tok}
    (h : altAhead R ts = false) :
    parse (n + 1) (.type P R F) (.name s :: ts) =
      (match (readSegs ts).2 with
        | .lt :: .bang :: rest =>
          match readNames rest with
          | some (es, .gt :: rest') => some (.one (.app (s :: (readSegs ts).1) .nil es), rest')
          | _ => none
        | .lt :: rest =>
          match parse n (.sep1 .type P false false) rest with
          | some (as, .gt :: rest') => some (.one (.app (s :: (readSegs ts).1) as []), rest')
          | some (as, .bang :: rest') =>
            match readNames rest' with
            | some (es, .gt :: rest'') => some (.one (.app (s :: (readSegs ts).1) as es), rest'')
            | _ => none
          | _ => none
        | rest => some (.one (.path (s :: (readSegs ts).1)), rest)) := by
  simp only [parse, h]
  rfl

theorem altAhead_segs {u p} (h : Segs u p) {rest : List Tok} {R : Bool}
    (hr : altAhead R rest = false) : altAhead R (u ++ rest) = false := by
  cases h with
  | nil => simpa using hr
  | cons => rfl

theorem parse_alt_unit {n P R ts r} (h : parse n (.alt P false R) ts = some r) :
    parse n (.alt P true R) ts = some r := by
  cases n with
  | zero => simp [parse] at h
  | succ n =>
    simp only [parse] at h ⊢
    split at h
    · simpa using h
    · simpa using h
    · simp at h
    · simp at h

theorem parse_name_alts (n : Nat) (P R F : Bool) (s : String) {ts : List Tok}
    (h : altAhead R ts = true) :
    parse (n + 1) (.type P R F) (.name s :: ts) =
      (parse n (.alts P R) (.name s :: ts)).map fun r => (.one (.variant r.1), r.2) := by
  simp [parse, h]

theorem parse_alts_end {n P R ts v rest} (h : parse n (.alt P true R) ts = some (v, rest))
    (hr : ∀ w, rest ≠ .bar :: w) : parse (n + 1) (.alts P R) ts = some (v, rest) := by
  simp only [parse, h]
  split
  · rename_i he
    simp only [Option.some.injEq, Prod.mk.injEq] at he
    exact (hr _ he.2).elim
  · rfl

theorem parse_alts_bar {n P R ts v w r} (h : parse n (.alt P true R) ts = some (v, .bar :: w))
    (hr : parse n (.alts P R) w = some r) :
    parse (n + 1) (.alts P R) ts = some (v.append r.1, r.2) := by
  simp [parse, h, hr]

theorem no_bar {a : Tok} (h : closes a = true) : a ≠ .bar := by
  rintro rfl
  simp [closes] at h

theorem parse_complete {nt u v} (h : D nt u v) :
    ∀ rest, Stop nt rest → Finds nt (u ++ rest) (v, rest) := by
  induction h with
  | hole => exact fun rest _ => .mk 0 fun n _ => rfl
  | unit =>
    intro rest hr
    refine .mk 0 fun n _ => ?_
    cases rest with
    | nil => rfl
    | cons a rest => cases a <;> first | rfl | simp [Stop, closes] at hr
  | array _ ih =>
    intro rest _
    obtain ⟨N, hN⟩ := ih (.rbrk :: rest) ⟨rfl, by simp⟩
    refine .mk N fun n hn => ?_
    simp [parse, hN n hn]
  | record h ih =>
    intro rest _
    obtain ⟨N, hN⟩ := ih (.rbrc :: rest) (.inl rfl)
    obtain ⟨a, w, rfl, ha⟩ := first h ⟨_, _, _, .inr ⟨_, .inr rfl⟩⟩
    refine .mk N fun n hn => ?_
    have := hN n hn
    simp only [List.cons_append, List.append_assoc, List.nil_append] at this ⊢
    rw [parse_lbrc n _ _ _ ha, this]
  | record0 => exact fun rest _ => .mk 0 fun n _ => rfl
  | @variant P R F u v h ih =>
    intro rest hr
    obtain ⟨s, w, rfl, hw⟩ := alt_first h
    have hahead : altAhead R (w ++ rest) = true := by
      rcases hw with ⟨h, _⟩ | ⟨x, rfl⟩ | ⟨rfl, x, rfl⟩
      · cases h
      · rfl
      · rfl
    obtain ⟨N, hN⟩ := ih rest (by
      cases rest with
      | nil => trivial
      | cons a rest => exact .inl hr.1)
    refine .mk (N + 1) fun n hn => ?_
    obtain ⟨m, rfl⟩ : ∃ m, n = m + 1 := ⟨n - 1, by omega⟩
    have h1 := parse_alts_end (parse_alt_unit (hN m (by omega))) (by
      rintro w rfl
      exact no_bar hr.1 rfl)
    simp only [List.cons_append] at h1 ⊢
    rw [parse_name_alts _ _ _ _ _ hahead, h1]
    rfl
  | @variants P R F u v w vs h _ ih1 ih2 =>
    intro rest hr
    obtain ⟨s, x, rfl, hx⟩ := alt_first h
    have hahead : altAhead R (x ++ .bar :: (w ++ rest)) = true := by
      rcases hx with ⟨_, rfl⟩ | ⟨x, rfl⟩ | ⟨rfl, x, rfl⟩
      · rfl
      · rfl
      · rfl
    obtain ⟨N1, hN1⟩ := ih1 (.bar :: (w ++ rest)) (.inr rfl)
    obtain ⟨N2, hN2⟩ := ih2 rest (by
      cases rest with
      | nil => trivial
      | cons a rest => exact hr.1)
    refine .mk (N1 + N2 + 1) fun n hn => ?_
    obtain ⟨m, rfl⟩ : ∃ m, n = m + 1 := ⟨n - 1, by omega⟩
    have h1 := parse_alts_bar (hN1 m (by omega)) (hN2 m (by omega))
    simp only [List.cons_append, List.append_assoc] at h1 ⊢
    rw [parse_name_alts _ _ _ _ _ hahead, h1]
    rfl
  | paren h ih =>
    intro rest hr
    obtain ⟨N, hN⟩ := ih (.rpar :: rest) ⟨rfl, by simp⟩
    obtain ⟨a, w, rfl, ha⟩ := first h ⟨_, _, _, .inr ⟨_, .inl rfl⟩⟩
    refine .mk N fun n hn => ?_
    have := hN n hn
    simp only [List.cons_append, List.append_assoc, List.nil_append] at this ⊢
    rw [parse_lpar n _ _ _ ha, this]
    cases rest with
    | nil => rfl
    | cons a rest => cases a <;> first | rfl | simp [Stop, closes] at hr
  | @tuple P R F u t w ts h1 h2 hp ih1 ih2 =>
    intro rest hr
    obtain ⟨N1, hN1⟩ := ih1 (.comma :: (w ++ .rpar :: rest)) ⟨rfl, by simp⟩
    obtain ⟨N2, hN2⟩ := ih2 (.rpar :: rest) rfl
    obtain ⟨a, x, rfl, ha⟩ := first h1 ⟨_, _, _, .inr ⟨_, .inl rfl⟩⟩
    refine .mk (N1 + N2) fun n hn => ?_
    have e1 := hN1 n (by omega)
    have e2 := hN2 n (by omega)
    simp only [List.cons_append, List.append_assoc, List.nil_append] at e1 ⊢
    rw [parse_lpar n _ _ _ ha, e1]
    simp only [e2]
    have hall : (PTys.allPlain (.one t) && ts.allPlain) = true := by simp [PTys.allPlain, hp]
    cases rest with
    | nil => simp [hall, append_one]
    | cons a rest => cases a <;> first | (simp [Stop, closes] at hr; done) | simp [hall, append_one]
  | fn0 h ih =>
    intro rest hr
    obtain ⟨w, rfl⟩ := ret_arrow h
    obtain ⟨N, hN⟩ := ih rest (by cases rest <;> exact hr)
    exact .mk N fun n hn => hN n hn
  | @fn1 P R F u v w r e h1 h2 ih1 ih2 =>
    intro rest hr
    obtain ⟨x, rfl⟩ := ret_arrow h2
    obtain ⟨N1, hN1⟩ := ih1 (.rpar :: .arrow :: (x ++ rest)) ⟨rfl, by simp⟩
    obtain ⟨N2, hN2⟩ := ih2 rest (by cases rest <;> exact hr)
    obtain ⟨a, y, rfl, ha⟩ := first h1 ⟨_, _, _, .inr ⟨_, .inl rfl⟩⟩
    refine .mk (N1 + N2) fun n hn => ?_
    have e1 := hN1 n (by omega)
    have e2 := hN2 n (by omega)
    simp only [List.cons_append, List.append_assoc, List.nil_append] at e1 e2 ⊢
    rw [parse_lpar n _ _ _ ha, e1]
    simp only [e2]
    rfl
  | @fnN P R F u v w vs x r e h1 h2 h3 ih1 ih2 ih3 =>
    intro rest hr
    obtain ⟨z, rfl⟩ := ret_arrow h3
    obtain ⟨N1, hN1⟩ := ih1 (.comma :: (w ++ .rpar :: .arrow :: (z ++ rest))) ⟨rfl, by simp⟩
    obtain ⟨N2, hN2⟩ := ih2 (.rpar :: .arrow :: (z ++ rest)) rfl
    obtain ⟨N3, hN3⟩ := ih3 rest (by cases rest <;> exact hr)
    obtain ⟨a, y, rfl, ha⟩ := first h1 ⟨_, _, _, .inr ⟨_, .inl rfl⟩⟩
    refine .mk (N1 + N2 + N3) fun n hn => ?_
    have e1 := hN1 n (by omega)
    have e2 := hN2 n (by omega)
    have e3 := hN3 n (by omega)
    simp only [List.cons_append, List.append_assoc, List.nil_append] at e1 e2 e3 ⊢
    rw [parse_lpar n _ _ _ ha, e1]
    simp only [e2, e3]
    rfl
  | @path P R F u p h =>
    intro rest hr
    cases h with
    | mk h =>
      refine .mk 0 fun n _ => ?_
      rw [List.cons_append, parse_path n _ _ _ _ (altAhead_segs h (altAhead_stop hr _)),
        readSegs_segs h hr.tail]
      cases rest with
      | nil => rfl
      | cons a rest => cases a <;> first | rfl | simp [Stop, closes] at hr
  | @app P R F u p w args hp h ih =>
    intro rest hr
    cases hp with
    | mk hs =>
      obtain ⟨N, hN⟩ := ih (.gt :: rest) (.inr (.inl rfl))
      obtain ⟨a, x, rfl, ha⟩ := first h ⟨_, _, _, .inr ⟨_, .inr rfl⟩⟩
      refine .mk N fun n hn => ?_
      have e := hN n hn
      simp only [List.cons_append, List.append_assoc, List.nil_append] at e ⊢
      rw [parse_path n _ _ _ _ (altAhead_segs hs rfl), readSegs_segs hs (rest := .lt :: _) trivial]
      cases a <;> first | (simp [closes] at ha; done) | simp [e]
  | @appBoth P R F u p w args x es hp h hx ih =>
    intro rest hr
    cases hp with
    | mk hs =>
      obtain ⟨N, hN⟩ := ih (.bang :: (x ++ .gt :: rest)) (.inr (.inr ⟨rfl, rfl⟩))
      obtain ⟨a, y, rfl, ha⟩ := first h ⟨_, _, _, .inr ⟨_, .inr rfl⟩⟩
      have hn' := readNames_names hx (.gt :: rest) (by simp)
      refine .mk N fun n hn => ?_
      have e := hN n hn
      simp only [List.cons_append, List.append_assoc, List.nil_append] at e ⊢
      rw [parse_path n _ _ _ _ (altAhead_segs hs rfl), readSegs_segs hs (rest := .lt :: _) trivial]
      cases a <;> first | (simp [closes] at ha; done) | simp [e, hn']
  | @appEffs P R F u p x es hp hx =>
    intro rest hr
    cases hp with
    | mk hs =>
      have hn' := readNames_names hx (.gt :: rest) (by simp)
      refine .mk 0 fun n hn => ?_
      simp only [List.cons_append, List.append_assoc, List.nil_append]
      rw [parse_path n _ _ _ _ (altAhead_segs hs rfl), readSegs_segs hs (rest := .lt :: _) trivial]
      simp [hn']
  | itemType h ih =>
    intro rest hr
    obtain ⟨N, hN⟩ := ih rest (by cases rest <;> exact hr)
    exact .mk N fun n hn => hN n hn
  | itemArg h ih =>
    intro rest hr
    obtain ⟨N, hN⟩ := ih rest (by cases rest <;> exact hr)
    obtain ⟨a, y, rfl, ha⟩ := first h ⟨_, _, _, .inl rfl⟩
    refine .mk N fun n hn => ?_
    rw [parse_arg]
    · exact hN n hn
    · intro w hw
      simp only [List.cons_append, List.cons.injEq] at hw
      exact type_no_amp h y (by rw [hw.1])
  | itemMut h ih =>
    intro rest hr
    obtain ⟨N, hN⟩ := ih rest (by cases rest <;> exact hr)
    refine .mk N fun n hn => ?_
    simp [parse, hN n hn]
  | itemAny h ih =>
    intro rest hr
    obtain ⟨N, hN⟩ := ih rest (by cases rest <;> exact hr)
    refine .mk N fun n hn => ?_
    simp [parse, hN n hn]
  | itemField h ih =>
    intro rest hr
    obtain ⟨N, hN⟩ := ih rest (by cases rest <;> exact hr)
    refine .mk N fun n hn => ?_
    simp [parse, hN n hn]
  | sepNil =>
    intro rest hr
    cases rest with
    | nil => exact hr.elim
    | cons a rest =>
      cases hr
      exact .mk 0 fun n _ => rfl
  | sepLast h ih =>
    intro rest hr
    cases rest with
    | nil => exact hr.elim
    | cons b rest =>
      cases hr
      obtain ⟨N, hN⟩ := ih (.rpar :: rest) ⟨rfl, by simp⟩
      obtain ⟨a, y, rfl, ha⟩ := first h ⟨_, _, _, .inr ⟨_, .inl rfl⟩⟩
      refine .mk N fun n hn => ?_
      have e := hN n hn
      simp only [List.cons_append] at e ⊢
      rw [parse_sep n _ _ _ _ ha, e]
  | @sepCons k P R F u v w vs h _ ih1 ih2 =>
    intro rest hr
    obtain ⟨N1, hN1⟩ := ih1 (.comma :: (w ++ rest)) ⟨rfl, by simp⟩
    obtain ⟨N2, hN2⟩ := ih2 rest hr
    obtain ⟨a, y, rfl, ha⟩ := first h ⟨_, _, _, .inr ⟨_, .inl rfl⟩⟩
    refine .mk (N1 + N2) fun n hn => ?_
    have e1 := hN1 n (by omega)
    have e2 := hN2 n (by omega)
    simp only [List.cons_append, List.append_assoc] at e1 ⊢
    rw [parse_sep n _ _ _ _ ha, e1]
    simp only [e2]
    rfl
  | @sep1One k P R F u v h ih =>
    intro rest hr
    obtain ⟨N, hN⟩ := ih rest (by
      cases rest with
      | nil => trivial
      | cons a rest => rcases hr with rfl | rfl | ⟨rfl, rfl⟩ <;> exact ⟨rfl, by simp⟩)
    refine .mk N fun n hn => ?_
    simp only [parse, hN n hn]
    split
    · rename_i he
      simp only [Option.some.injEq, Prod.mk.injEq] at he
      rw [he.2] at hr
      rcases hr with h | h | ⟨h, _⟩ <;> cases h
    · rfl
  | @sep1Trail k P R F u v h ih =>
    intro rest hr
    obtain ⟨N, hN⟩ := ih (.comma :: rest) ⟨rfl, by simp⟩
    refine .mk N fun n hn => ?_
    simp only [parse, List.append_assoc, List.cons_append, List.nil_append, hN n hn]
    cases rest with
    | nil => exact hr.elim
    | cons a rest => rcases hr with rfl | rfl | ⟨rfl, rfl⟩ <;> rfl
  | @sep1Cons k P R F u v w vs h h2 ih1 ih2 =>
    intro rest hr
    obtain ⟨N1, hN1⟩ := ih1 (.comma :: (w ++ rest)) ⟨rfl, by simp⟩
    obtain ⟨N2, hN2⟩ := ih2 rest hr
    obtain ⟨a, y, rfl, ha⟩ := first h2 ⟨_, _, _, .inr ⟨_, .inr rfl⟩⟩
    refine .mk (N1 + N2) fun n hn => ?_
    have e1 := hN1 n (by omega)
    have e2 := hN2 n (by omega)
    simp only [List.cons_append, List.append_assoc] at e1 e2 ⊢
    simp [parse, e1, ha, e2]
  | altUnit =>
    intro rest hr
    refine .mk 0 fun n _ => ?_
    cases rest with
    | nil => rfl
    | cons a rest => cases a <;> first | (simp [Stop, closes] at hr; done) | rfl
  | altTuple h ih =>
    intro rest hr
    obtain ⟨N, hN⟩ := ih (.rpar :: rest) rfl
    refine .mk N fun n hn => ?_
    simp [parse, hN n hn]
  | altRecord h ih =>
    intro rest hr
    obtain ⟨N, hN⟩ := ih (.rbrc :: rest) (.inl rfl)
    refine .mk N fun n hn => ?_
    simp [parse, hN n hn]
  | altsOne h ih =>
    intro rest hr
    obtain ⟨N, hN⟩ := ih rest (by
      cases rest with
      | nil => trivial
      | cons a rest => exact .inl hr)
    refine .mk N fun n hn => parse_alts_end (hN n hn) ?_
    rintro w rfl
    exact no_bar hr rfl
  | @altsCons P R u v w vs h _ ih1 ih2 =>
    intro rest hr
    obtain ⟨N1, hN1⟩ := ih1 (.bar :: (w ++ rest)) (.inr rfl)
    obtain ⟨N2, hN2⟩ := ih2 rest hr
    refine .mk (N1 + N2) fun n hn => ?_
    have := parse_alts_bar (hN1 n (by omega)) (hN2 n (by omega))
    simpa using this
  | @retPlain P F u r h ih =>
    intro rest hr
    obtain ⟨N, hN⟩ := ih rest (by
      cases rest with
      | nil => trivial
      | cons a rest => exact ⟨hr.1, by simp⟩)
    refine .mk N fun n hn => ?_
    simp only [List.cons_append, parse, hN n hn]
    cases rest with
    | nil => rfl
    | cons a rest =>
      cases a <;> first | (simp [Stop, closes] at hr; done) | rfl | skip
      have hF : F = false := by
        cases F
        · rfl
        · exact (hr.2 rfl rfl).elim
      subst hF
      rfl
  | @retEffs P u r w es h hw ih =>
    intro rest hr
    obtain ⟨N, hN⟩ := ih (.bang :: (w ++ rest)) ⟨rfl, by simp⟩
    refine .mk N fun n hn => ?_
    have e := hN n hn
    simp only [List.cons_append, List.append_assoc] at e ⊢
    simp [parse, e, readEffs_effs hw rest]

/-- **The grammar of types is unambiguous.** -/
theorem D_unique {P R F u t t'} (h : D (.type P R F) u (.one t)) (h' : D (.type P R F) u (.one t')) :
    t = t' := by
  obtain ⟨N, hN⟩ := parse_complete h [] trivial
  obtain ⟨N', hN'⟩ := parse_complete h' [] trivial
  have := (hN (N + N') (by omega)).symm.trans (hN' (N + N') (by omega))
  simpa using this

end Ferlium.TypeText
