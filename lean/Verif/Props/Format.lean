import Verif.Model.Format
import Verif.Proofs.Normal
import Mathlib.Data.List.TakeWhile
import Mathlib.Tactic

/-!
C62: a formatted string shows the value of each placeholder in its place and everything else as it is written.
-/
namespace Ferlium.Format
open Ferlium.Text

/-! ### What is expected -/

/-- A name: a letter or underscore, then letters, numbers and underscores. -/
structure IsName (C : Classes) (n : Text) : Prop where
  first : ∃ c rest, n = c :: rest ∧ (C.letter c = true ∨ c = '_')
  all : ∀ c ∈ n, C.letter c = true ∨ C.number c = true ∨ c = '_'

/-- Braces are neither letters nor numbers. -/
def Classes.Sound (C : Classes) : Prop :=
  C.letter '{' = false ∧ C.number '{' = false ∧ C.letter '}' = false ∧ C.number '}' = false

instance (C : Classes) : Decidable C.Sound := inferInstanceAs (Decidable (_ ∧ _))

/-- The pieces as they are written. -/
def Piece.written : Piece → Text
  | .text t => t
  | .var n => '{' :: n ++ ['}']

def written (ps : List Piece) : Text := ps.flatMap Piece.written

/-- The names in scope. -/
def Around.bound : Around → List Text
  | .declared n outer => n :: outer.bound
  | .lambda params outer => params ++ outer.bound
  | .function params => params
  | .host locals => locals

/-- The values of the names are rendered from left to right, each one once. -/
def rendered {σ : Type} (render : Text → σ → Option (Text × σ)) : List Piece → σ → Option (List Text × σ)
  | [], s => some ([], s)
  | .text t :: ps, s => (rendered render ps s).map fun r => (t :: r.1, r.2)
  | .var n :: ps, s => (render n s).bind fun r => (rendered render ps r.2).map fun q => (r.1 :: q.1, q.2)

/-! ### Placeholders -/

theorem cont_iff (C : Classes) (c : Char) : C.cont c = true ↔ C.letter c = true ∨ C.number c = true ∨ c = '_' := by
  simp [Classes.cont, or_assoc]

theorem start_iff (C : Classes) (c : Char) : C.start c = true ↔ C.letter c = true ∨ c = '_' := by
  simp [Classes.start]

theorem Classes.Sound.close {C : Classes} (h : C.Sound) : C.cont '}' = false := by
  simp [Classes.cont, h.2.2.1, h.2.2.2]

theorem Classes.Sound.open {C : Classes} (h : C.Sound) : C.cont '{' = false := by
  simp [Classes.cont, h.1, h.2.1]

theorem takeWhile_drop {p : Char → Bool} {l : Text} {d : Char} {r : Text} (hl : ∀ c ∈ l, p c = true) (hd : p d = false) :
    (l ++ d :: r).takeWhile p = l ∧ (l ++ d :: r).dropWhile p = d :: r := by
  induction l with
  | nil => simp [hd]
  | cons a l ih =>
    have ha := hl a (by simp)
    have := ih (fun c hc => hl c (by simp [hc]))
    simp [ha, this]

theorem matchAt_sound {C : Classes} {s name after : Text} (h : matchAt C s = some (name, after)) :
    IsName C name ∧ s = '{' :: name ++ '}' :: after := by
  unfold matchAt at h
  split at h
  · rename_i c rest
    split at h
    · rename_i hc
      split at h
      · rename_i after' hd
        simp only [Option.some.injEq, Prod.mk.injEq] at h
        obtain ⟨rfl, rfl⟩ := h
        refine ⟨⟨⟨c, _, rfl, (start_iff C c).mp hc⟩, ?_⟩, ?_⟩
        · intro d hd'
          rcases List.mem_cons.mp hd' with rfl | hd'
          · exact ((start_iff C d).mp hc).imp id Or.inr
          · exact (cont_iff C d).mp (by simpa using List.mem_takeWhile_imp hd')
        · have := List.takeWhile_append_dropWhile (p := C.cont) (l := rest)
          rw [hd] at this
          simp [this]
      · exact nomatch h
    · exact nomatch h
  · exact nomatch h

theorem matchAt_complete {C : Classes} (hC : C.Sound) {name after : Text} (h : IsName C name) :
    matchAt C ('{' :: name ++ '}' :: after) = some (name, after) := by
  obtain ⟨⟨c, rest, rfl, hc⟩, hall⟩ := h
  obtain ⟨h1, h2⟩ := takeWhile_drop (p := C.cont) (l := rest) (d := '}') (r := after)
    (fun d hd => (cont_iff C d).mpr (hall d (by simp [hd]))) hC.close
  have hs : C.start c = true := (start_iff C c).mpr hc
  show matchAt C ('{' :: c :: (rest ++ '}' :: after)) = _
  simp only [matchAt, hs, if_true, h2, h1]

/-! ### The pieces -/

theorem written_flush (lit : Text) (ps : List Piece) : written (flush lit ps) = lit ++ written ps := by
  unfold flush
  split
  · rename_i h; subst h; rfl
  · rfl

theorem written_splitFrom (C : Classes) : ∀ (fuel : Nat) (lit rest : Text), written (splitFrom C fuel lit rest) = lit ++ rest := by
  intro fuel
  induction fuel with
  | zero => intro lit rest; rw [splitFrom, written_flush]; simp [written]
  | succ fuel ih =>
    intro lit rest
    simp only [splitFrom]
    split
    · rename_i name after h
      obtain ⟨_, rfl⟩ := matchAt_sound h
      rw [written_flush]
      simp only [written, List.flatMap_cons, Piece.written] at ih ⊢
      rw [ih]; simp
    · split
      · rw [written_flush]; simp [written]
      · rw [ih]; simp

/-- No empty literal, no two literals side by side, proper names. -/
def Proper (C : Classes) : List Piece → Prop
  | [] => True
  | .text t :: ps => t ≠ [] ∧ (∀ t' ps', ps ≠ .text t' :: ps') ∧ Proper C ps
  | .var n :: ps => IsName C n ∧ Proper C ps

theorem proper_flush {C : Classes} {lit : Text} {ps : List Piece} (h : Proper C ps) (h' : ∀ t' ps', ps ≠ .text t' :: ps') :
    Proper C (flush lit ps) := by
  unfold flush
  split
  · exact h
  · rename_i hl; exact ⟨hl, h', h⟩

theorem proper_splitFrom (C : Classes) : ∀ (fuel : Nat) (lit rest : Text), Proper C (splitFrom C fuel lit rest) := by
  intro fuel
  induction fuel with
  | zero => intro lit rest; exact proper_flush trivial (by simp)
  | succ fuel ih =>
    intro lit rest
    simp only [splitFrom]
    split
    · rename_i name after h
      exact proper_flush ⟨(matchAt_sound h).1, ih _ _⟩ (by simp)
    · split
      · exact proper_flush trivial (by simp)
      · exact ih _ _

theorem flush_append {lit : Text} {ps A B : List Piece} {n : Text} (h : ps = A ++ .var n :: B) :
    flush lit ps = flush lit A ++ .var n :: B := by
  subst h; unfold flush; split <;> rfl

theorem found_splitFrom {C : Classes} (hC : C.Sound) {n : Text} (hn : IsName C n) :
    ∀ (fuel : Nat) (lit pre post : Text), (pre ++ '{' :: n ++ '}' :: post).length ≤ fuel →
      ∃ A B, splitFrom C fuel lit (pre ++ '{' :: n ++ '}' :: post) = A ++ .var n :: B ∧ written A = lit ++ pre ∧
        written B = post := by
  intro fuel
  induction fuel with
  | zero => intro lit pre post h; simp at h
  | succ fuel ih =>
    intro lit pre post hlen
    cases pre with
    | nil =>
      refine ⟨flush lit [], splitFrom C fuel [] post, ?_, ?_, ?_⟩
      · have := matchAt_complete hC (after := post) hn
        simp only [List.nil_append, splitFrom]
        rw [this]
        exact flush_append rfl
      · rw [written_flush]; simp [written]
      · simpa using written_splitFrom C fuel [] post
    | cons c pre =>
      simp only [splitFrom]
      split
      · rename_i name after h
        obtain ⟨hname, heq⟩ := matchAt_sound h
        -- the other match ends before this one begins
        have key : ∀ (m : Text) (p : Text), (∀ d ∈ m, C.cont d = true) →
            p ++ '{' :: n ++ '}' :: post = m ++ '}' :: after → ∃ q, p = m ++ '}' :: q ∧ after = q ++ '{' :: n ++ '}' :: post := by
          intro m
          induction m with
          | nil =>
            intro p _ he
            cases p with
            | nil => simp at he
            | cons d p =>
              simp only [List.cons_append, List.nil_append, List.cons.injEq] at he
              obtain ⟨rfl, he⟩ := he
              exact ⟨p, by simp, he.symm⟩
          | cons d m ihm =>
            intro p hm he
            cases p with
            | nil =>
              simp only [List.nil_append, List.cons_append, List.cons.injEq] at he
              have := hm d (by simp)
              rw [← he.1, hC.open] at this; exact nomatch this
            | cons d' p =>
              simp only [List.cons_append, List.cons.injEq] at he
              obtain ⟨rfl, he⟩ := he
              obtain ⟨q, rfl, h2⟩ := ihm p (fun x hx => hm x (by simp [hx])) (by simpa using he)
              exact ⟨q, by simp, h2⟩
        simp only [List.cons_append, List.cons.injEq] at heq
        obtain ⟨rfl, heq⟩ := heq
        obtain ⟨q, rfl, rfl⟩ := key name pre (fun d hd => (cont_iff C d).mpr (hname.all d hd)) (by simpa using heq)
        obtain ⟨A, B, h1, h2, h3⟩ := ih [] q post (by simp at hlen ⊢; omega)
        refine ⟨flush lit (.var name :: A), B, ?_, ?_, h3⟩
        · rw [h1]; exact flush_append rfl
        · rw [written_flush]
          simp only [written, List.flatMap_cons, Piece.written] at h2 ⊢
          rw [h2]; simp
      · obtain ⟨A, B, h1, h2, h3⟩ := ih (lit ++ [c]) pre post (by simp at hlen ⊢; omega)
        exact ⟨A, B, by simpa using h1, by simpa using h2, h3⟩

/-- **C62.** The pieces of a formatted string are the whole text in order.  Every name in braces, anywhere in the text, is a
piece of its own with the text before it in the pieces before it and the text after it in the pieces after it; every piece
which is not literal text is such a name.  Literal pieces are not empty and are never next to each other. -/
theorem C62_placeholders_exact {C : Classes} (hC : C.Sound) (s : Text) :
    written (pieces C s) = s ∧ Proper C (pieces C s) ∧
      ∀ pre n post, IsName C n → s = pre ++ '{' :: n ++ '}' :: post →
        ∃ A B, pieces C s = A ++ .var n :: B ∧ written A = pre ∧ written B = post := by
  refine ⟨by simpa [pieces] using written_splitFrom C s.length [] s, proper_splitFrom C _ _ _, ?_⟩
  rintro pre n post hn rfl
  have := found_splitFrom hC hn _ [] pre post le_rfl
  simpa only [List.nil_append, pieces] using this

/-- The letters and numbers of ASCII. -/
def ascii : Classes := ⟨Char.isAlpha, Char.isDigit⟩

example : ascii.Sound := by decide

/-- Braces around a name, braces around something else, braces in braces. -/
example : pieces ascii "a{b}{1}{{c_1}}".toList =
    [.text ['a'], .var ['b'], .text "{1}{".toList, .var "c_1".toList, .text ['}']] := by decide

/-! ### Names -/

theorem unknown_none (locals : List Text) (ps : List Piece) : unknown locals ps = none ↔ ∀ n, .var n ∈ ps → n ∈ locals := by
  induction ps with
  | nil => simp [unknown]
  | cons p ps ih =>
    cases p with
    | text t => simp [unknown, ih]
    | var m =>
      simp only [unknown]
      split
      · rename_i h; rw [ih]
        constructor
        · intro h' n hn
          rcases List.mem_cons.mp hn with he | hn
          · cases he; exact h
          · exact h' n hn
        · exact fun h' n hn => h' n (by simp [hn])
      · rename_i h
        simp only [reduceCtorEq, false_iff]
        exact fun h' => h (h' m (by simp))

theorem unknown_some {locals : List Text} {ps : List Piece} {n : Text} (h : unknown locals ps = some n) :
    ∃ A B, ps = A ++ .var n :: B ∧ n ∉ locals ∧ ∀ m, .var m ∈ A → m ∈ locals := by
  induction ps with
  | nil => exact nomatch h
  | cons p ps ih =>
    cases p with
    | text t =>
      obtain ⟨A, B, rfl, h2, h3⟩ := ih (by simpa [unknown] using h)
      exact ⟨.text t :: A, B, rfl, h2, by simpa using h3⟩
    | var m =>
      simp only [unknown] at h
      split at h
      · rename_i hm
        obtain ⟨A, B, rfl, h2, h3⟩ := ih h
        refine ⟨.var m :: A, B, rfl, h2, fun k hk => ?_⟩
        rcases List.mem_cons.mp hk with he | hk
        · cases he; exact hm
        · exact h3 k hk
      · rename_i hm
        cases h
        exact ⟨[], ps, rfl, hm, by simp⟩

theorem mem_var_iff {C : Classes} (hC : C.Sound) (s n : Text) :
    .var n ∈ pieces C s ↔ IsName C n ∧ ∃ pre post, s = pre ++ '{' :: n ++ '}' :: post := by
  obtain ⟨h1, h2, h3⟩ := C62_placeholders_exact hC s
  constructor
  · intro h
    obtain ⟨A, B, hAB⟩ := List.append_of_mem h
    constructor
    · rw [hAB] at h2
      clear h1 h3 hAB h
      induction A with
      | nil => exact h2.1
      | cons p A ih => cases p with
        | text t => exact ih h2.2.2
        | var m => exact ih h2.2
    · refine ⟨written A, written B, ?_⟩
      rw [← h1, hAB]; simp [written, Piece.written]
  · rintro ⟨hn, pre, post, h⟩
    obtain ⟨A, B, h, _⟩ := h3 pre n post hn h
    rw [h]; simp

/-- Every binding since the innermost lambda, or all of them outside of lambdas. -/
def Around.near : Around → List Text
  | .declared n outer => n :: outer.near
  | .lambda params _ => params
  | .function params => params
  | .host locals => locals

/-- The place is in no expression compiled with locals of the host, unless in a lambda. -/
def Around.Own : Around → Prop
  | .declared _ outer => outer.Own
  | .lambda _ _ => True
  | .function _ => True
  | .host locals => locals = []

theorem locals_near (w : Around) (h : w.Own) : w.locals = w.near := by
  induction w with
  | declared n outer ih => simp [Around.locals, Around.near, ih h]
  | lambda => rfl
  | function => rfl
  | host locals => simp only [Around.Own] at h; simp [Around.locals, Around.near, h]

theorem locals_bound (w : Around) : ∀ n ∈ w.locals, n ∈ w.bound := by
  induction w with
  | declared m outer ih =>
    intro n hn
    rcases List.mem_cons.mp hn with rfl | hn
    · simp [Around.bound]
    · simp [Around.bound, ih n hn]
  | lambda params outer _ => intro n hn; simp only [Around.locals] at hn; simp [Around.bound, hn]
  | function params => intro n hn; simpa [Around.locals, Around.bound] using hn
  | host locals => intro n hn; simp [Around.locals] at hn

/-- **C62, names.** A formatted string is accepted only if all names in braces are in scope, and it is accepted if they are
bound since the innermost lambda; the name reported otherwise is the first one which is not.

Missing: names bound outside the innermost lambda and locals of the host, for which see
`C62_captured_name_rejected_violated` and `C62_host_local_rejected_violated`. -/
theorem C62_names_in_scope_partial {C : Classes} (hC : C.Sound) (w : Around) (s : Text) :
    ((∃ ps, emit C w.locals s = .ok ps) → ∀ pre n post, IsName C n → s = pre ++ '{' :: n ++ '}' :: post → n ∈ w.bound) ∧
    (w.Own → ((∃ ps, emit C w.locals s = .ok ps) ↔
      ∀ pre n post, IsName C n → s = pre ++ '{' :: n ++ '}' :: post → n ∈ w.near)) ∧
    (∀ ps, emit C w.locals s = .ok ps → ps = pieces C s) ∧
    (∀ n, emit C w.locals s = .error n → IsName C n ∧ n ∉ w.locals ∧ ∃ pre post, s = pre ++ '{' :: n ++ '}' :: post ∧
      ∀ pre' m post', IsName C m → s = pre' ++ '{' :: m ++ '}' :: post' → pre'.length < pre.length → m ∈ w.locals) := by
  have hok : (∃ ps, emit C w.locals s = .ok ps) ↔ ∀ n, .var n ∈ pieces C s → n ∈ w.locals := by
    rw [← unknown_none]
    unfold emit
    split
    · rename_i h; simp [h]
    · rename_i h; simp [h]
  refine ⟨?_, ?_, ?_, ?_⟩
  · intro h pre n post hn hs
    exact locals_bound w n (hok.mp h n ((mem_var_iff hC s n).mpr ⟨hn, pre, post, hs⟩))
  · intro ho
    rw [hok, locals_near w ho]
    constructor
    · intro h pre n post hn hs
      exact h n ((mem_var_iff hC s n).mpr ⟨hn, pre, post, hs⟩)
    · intro h n hn
      obtain ⟨h1, pre, post, h2⟩ := (mem_var_iff hC s n).mp hn
      exact h pre n post h1 h2
  · intro ps h
    unfold emit at h
    split at h
    · exact nomatch h
    · exact (Except.ok.inj h).symm
  · intro n h
    unfold emit at h
    split at h
    · rename_i m hu
      cases h
      obtain ⟨A, B, hAB, hn, hA⟩ := unknown_some hu
      have hmem : .var n ∈ pieces C s := by rw [hAB]; simp
      have hs : s = written A ++ '{' :: n ++ '}' :: written B := by
        rw [← (C62_placeholders_exact hC s).1, hAB]; simp [written, Piece.written]
      refine ⟨((mem_var_iff hC s n).mp hmem).1, hn, written A, written B, hs, ?_⟩
      intro pre' m post' hm hs' hlt
      obtain ⟨A', B', hAB', hw, hw'⟩ := (C62_placeholders_exact hC s).2.2 pre' m post' hm hs'
      rcases List.append_eq_append_iff.mp (hAB.symm.trans hAB') with ⟨D, rfl, hD⟩ | ⟨D, rfl, hD⟩
      · have hle : (written A).length ≤ pre'.length := by
          rw [← hw]; simp [written]
        omega
      · cases D with
        | nil =>
          simp only [List.append_nil] at hlt
          rw [← hw] at hlt; omega
        | cons d D =>
          simp only [List.cons_append, List.cons.injEq] at hD
          exact hA m (by rw [← hD.1]; simp)
    · exact nomatch h

/-- `let x = 1; |y| f"{x}"`: a name in scope, which a lambda may capture, is rejected. -/
theorem C62_captured_name_rejected_violated :
    ¬ ∀ (C : Classes) (w : Around) (s : Text), C.Sound →
      (∀ pre n post, IsName C n → s = pre ++ '{' :: n ++ '}' :: post → n ∈ w.bound) → w.Own → ∃ ps, emit C w.locals s = .ok ps := by
  intro h
  have := h ascii (.lambda [['y']] (.declared ['x'] (.function []))) "{x}".toList (by decide) (by
    intro pre n post hn hs
    have := (mem_var_iff (C := ascii) (by decide) "{x}".toList n).mpr ⟨hn, pre, post, hs⟩
    rw [show pieces ascii "{x}".toList = [.var ['x']] by decide] at this
    simp only [List.mem_singleton, Piece.var.injEq] at this
    subst this; decide) trivial
  obtain ⟨ps, hps⟩ := this
  have he : emit ascii (Around.lambda [['y']] (.declared ['x'] (.function []))).locals "{x}".toList = .error ['x'] := by rfl
  rw [he] at hps
  exact nomatch hps

/-- An expression compiled with a local `x` of the host cannot show it in a formatted string. -/
theorem C62_host_local_rejected_violated :
    emit ascii (Around.host [['x']]).locals "{x}".toList = .error ['x'] ∧ ['x'] ∈ (Around.host [['x']]).bound :=
  ⟨by rfl, by decide⟩

/-- Accepted in the body of a function, with a parameter and a local. -/
example : ∃ ps, emit ascii (Around.declared ['b'] (.function [['a']])).locals "{a}{b}".toList = .ok ps := ⟨_, rfl⟩

/-! ### Values -/

theorem push_nil (N : Normaliser) (acc : Text) : push N acc [] = acc := by simp [push]

theorem nfc_push {N : Normaliser} (L : N.Lawful) (acc t : Text) : N.nfc (push N acc t) = N.nfc (acc ++ t) := by
  unfold push
  split
  · split
    · exact L.idem _
    · rfl
  · rfl

theorem nfc_append_left {N : Normaliser} (L : N.Lawful) {a a' : Text} (b : Text) (h : N.nfc a = N.nfc a') :
    N.nfc (a ++ b) = N.nfc (a' ++ b) := by
  rw [← L.join a b, h, L.join]

theorem nfc_fresh {N : Normaliser} (L : N.Lawful) (a t : Text) : N.nfc (a ++ fresh N t) = N.nfc (a ++ t) := by
  rw [← L.join a (fresh N t), ← L.join a t]
  congr 2
  exact L.idem t

theorem build_spec {σ : Type} {N : Normaliser} (L : N.Lawful) (render : Text → σ → Option (Text × σ)) :
    ∀ (ps : List Piece) (acc : Text) (s : σ),
      match rendered render ps s, build N render ps acc s with
      | none, none => True
      | some (ts, s'), some (t, s'') => s' = s'' ∧ N.nfc t = N.nfc (acc ++ ts.flatten) ∧
        ((∀ p ∈ ps, ∀ u, p = .text u → N.Normal u) → (∀ u ∈ ts, ∀ c rest, u = c :: rest → N.mark c = false) →
          t = acc ++ ts.flatten)
      | _, _ => False := by
  intro ps
  induction ps with
  | nil => intro acc s; simp [rendered, build]
  | cons p ps ih =>
    intro acc s
    cases p with
    | text u =>
      have := ih (push N acc (fresh N u)) s
      simp only [rendered, build]
      revert this
      generalize rendered render ps s = r
      generalize build N render ps (push N acc (fresh N u)) s = b
      intro h
      match r, b, h with
      | none, none, _ => simp
      | some (ts, s'), some (t, s''), ⟨h1, h2, h3⟩ =>
        refine ⟨h1, ?_, ?_⟩
        · rw [h2]
          simp only [List.flatten_cons, ← List.append_assoc]
          apply nfc_append_left L
          rw [nfc_push L, nfc_fresh L]
        · intro hn hm
          have hu : fresh N u = u := hn _ (by simp) u rfl
          rw [h3 (fun p hp => hn p (by simp [hp])) (fun v hv => hm v (by simp [hv])), hu]
          have : push N acc u = acc ++ u := by
            unfold push
            split
            · rename_i c rest
              rw [if_neg (by rw [hm (c :: rest) (by simp) c rest rfl]; simp)]
            · rfl
          rw [this]; simp
    | var n =>
      simp only [rendered, build]
      cases hr : render n s with
      | none => simp
      | some q =>
        obtain ⟨u, s1⟩ := q
        have := ih (push N acc u) s1
        simp only [Option.bind_some]
        revert this
        generalize rendered render ps s1 = r
        generalize build N render ps (push N acc u) s1 = b
        intro h
        match r, b, h with
        | none, none, _ => simp
        | some (ts, s'), some (t, s''), ⟨h1, h2, h3⟩ =>
          refine ⟨h1, ?_, ?_⟩
          · rw [h2]
            simp only [List.flatten_cons, ← List.append_assoc]
            exact nfc_append_left L _ (nfc_push L _ _)
          · intro hn hm
            rw [h3 (fun p hp => hn p (by simp [hp])) (fun v hv => hm v (by simp [hv]))]
            have : push N acc u = acc ++ u := by
              unfold push
              split
              · rename_i c rest
                rw [if_neg (by rw [hm (c :: rest) (by simp) c rest rfl]; simp)]
              · rfl
            rw [this]; simp

/-- **C62, value.** The value of a formatted string is, up to normalisation of the characters, the text with each name in
braces replaced by the rendering of its value; it is exactly that text if the literal parts are normalised and no part starts
with a combining mark.  The values are rendered once each, from left to right, and it fails exactly if one of them fails. -/
theorem C62_value {σ : Type} {N : Normaliser} (L : N.Lawful) (render : Text → σ → Option (Text × σ)) (ps : List Piece) (s : σ) :
    ((value N render ps s).map Prod.snd = (rendered render ps s).map Prod.snd) ∧
    ∀ t s' ts, value N render ps s = some (t, s') → rendered render ps s = some (ts, s') →
      N.nfc t = N.nfc ts.flatten ∧
      ((∀ u, .text u ∈ ps → N.Normal u) → (∀ u ∈ ts, ∀ c rest, u = c :: rest → N.mark c = false) → t = ts.flatten) := by
  have h0 : fresh N [] = [] := L.nil
  have := build_spec L render ps (fresh N []) s
  rw [h0] at this
  unfold value
  rw [h0]
  revert this
  generalize rendered render ps s = r
  generalize build N render ps [] s = b
  intro h
  match r, b, h with
  | none, none, _ => simp
  | some (ts, s'), some (t, s''), ⟨h1, h2, h3⟩ =>
    refine ⟨by simp [h1], ?_⟩
    intro t' q ts' e1 e2
    simp only [Option.some.injEq, Prod.mk.injEq] at e1 e2
    obtain ⟨rfl, rfl⟩ := e1
    obtain ⟨rfl, _⟩ := e2
    exact ⟨by simpa using h2, fun hn hm => by simpa using h3 (fun p hp u hu => hn u (hu ▸ hp)) hm⟩

/-- `f"n{a}"` where rendering counts and `a` is a combining tilde, with the normaliser of `Normal.lean`: `ñ`. -/
example : hangul.Lawful ∧
    value hangul (fun _ (k : Nat) => some (['̃'], k + 1)) (pieces ascii "n{a}".toList) 0 = some (['ñ'], 1) :=
  ⟨hangul_lawful, by
    rw [show pieces ascii "n{a}".toList = [.text ['n'], .var ['a']] by decide]
    simp [value, build, fresh, push, hangul, compose, hangulPair]⟩

end Ferlium.Format
