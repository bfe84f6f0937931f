import Verif.Proofs.UnifyMain

/-!
C38: unification of types.
-/
namespace Ferlium.Unify

mutual

/-- Two types of the same shape: the same constructors, the same numbers of parts, the same names; the type `never` of
expressions without value fits everywhere. -/
inductive SameShape : Ty → Ty → Prop
  | left (t) : SameShape .never t
  | right (t) : SameShape t .never
  | var (v) : SameShape (.var v) (.var v)
  | node {h a b} : SameParts a b → SameShape (.node h a) (.node h b)

/-- The same for the parts. -/
inductive SameParts : Args → Args → Prop
  | nil : SameParts .nil .nil
  | cons {n t t' r r'} : SameShape t t' → SameParts r r' → SameParts (.cons n t r) (.cons n t' r')

end

/-- What the rest of the compiler ensures about the types it makes, and one assumption about records: no record type has
the fields of another one followed by more. -/
structure Tidy (S : Head → List (Option Nat) → Prop) : Prop where
  named : FixedArity S
  native : ∀ k ns ms, S (.native k) ns → S (.native k) ms → ns.length = ms.length
  positional : ∀ h ns, checksNames h = false → S h ns → ∀ n ∈ ns, n = none
  records : ∀ ns ms, S .record ns → S .record ms → ns <+: ms → ns = ms

variable {S : Head → List (Option Nat) → Prop} {pick : Nat → Nat → Bool}

theorem AgreeArgs.prefix {h : Head} (hc : checksNames h = true) : ∀ {a b : Args}, AgreeArgs h a b →
    a.names <+: b.names ∨ b.names <+: a.names
  | _, _, .nil b => .inl (List.nil_prefix)
  | _, _, .nil' a => .inr (List.nil_prefix)
  | _, _, .cons h1 _ h3 => by
    rw [Args.names, Args.names, h1 hc, List.cons_prefix_cons, List.cons_prefix_cons]
    rcases AgreeArgs.prefix hc h3 with h | h
    · exact .inl ⟨rfl, h⟩
    · exact .inr ⟨rfl, h⟩

theorem eq_of_none {ns ms : List (Option Nat)} (h : ∀ n ∈ ns, n = none) (h' : ∀ n ∈ ms, n = none) (hl : ns.length = ms.length) :
    ns = ms := by
  rw [List.eq_replicate_of_mem h, List.eq_replicate_of_mem h', hl]

theorem names_eq (hS : Tidy S) {h : Head} {a b : Args} (hab : AgreeArgs h a b) (hl : checksLength h = true → a.length = b.length)
    (ha : S h a.names) (hb : S h b.names) : a.names = b.names := by
  have hlen : a.length = b.length → a.names.length = b.names.length := by
    rw [Args.length_names, Args.length_names]; exact id
  cases h with
  | native k => exact eq_of_none (hS.positional _ _ rfl ha) (hS.positional _ _ rfl hb) (hS.native k _ _ ha hb)
  | named k => exact eq_of_none (hS.positional _ _ rfl ha) (hS.positional _ _ rfl hb) (hS.named k _ _ ha hb)
  | tuple => exact eq_of_none (hS.positional _ _ rfl ha) (hS.positional _ _ rfl hb) (hlen (hl rfl))
  | function => exact eq_of_none (hS.positional _ _ rfl ha) (hS.positional _ _ rfl hb) (hlen (hl rfl))
  | variant =>
    rcases hab.prefix rfl with h | h
    · exact h.eq_of_length (hlen (hl rfl))
    · exact (h.eq_of_length (hlen (hl rfl)).symm).symm
  | record =>
    rcases hab.prefix rfl with h | h
    · exact hS.records _ _ ha hb h
    · exact (hS.records _ _ hb ha h).symm

mutual

theorem sameShape (hS : Tidy S) : ∀ {t t' : Ty}, Agree t t' → t.Sorted S → t'.Sorted S → SameShape t t'
  | _, _, .left t, _, _ => .left t
  | _, _, .right t, _, _ => .right t
  | _, _, .var v, _, _ => .var v
  | _, _, .node (h := k) (a := a) (b := b) h1 h2, hs, hs' => by
    rw [Ty.Sorted] at hs hs'
    exact .node (sameParts hS h2 hs.2 hs'.2 (names_eq hS h2 h1 hs.1 hs'.1))

theorem sameParts (hS : Tidy S) {h : Head} : ∀ {a b : Args}, AgreeArgs h a b → a.Sorted S → b.Sorted S → a.names = b.names →
    SameParts a b
  | _, _, .nil b, _, _, hn => by
    cases b with
    | nil => exact .nil
    | cons => rw [Args.names, Args.names] at hn; cases hn
  | _, _, .nil' a, _, _, hn => by
    cases a with
    | nil => exact .nil
    | cons => rw [Args.names, Args.names] at hn; cases hn
  | _, _, .cons (n := n) (n' := n') h1 h2 h3, hs, hs', hn => by
    rw [Args.names, Args.names] at hn
    rw [Args.Sorted] at hs hs'
    simp only [List.cons.injEq] at hn
    obtain ⟨rfl, hn⟩ := hn
    exact .cons (sameShape hS h2 hs.1 hs'.1) (sameParts hS h3 hs.2 hs'.2 hn)

end

theorem tri_fresh (n : Nat) : Tri (fresh n) Ty.var := by
  have h : ∀ (v : Nat) (t : Ty), (fresh n)[v]? ≠ some (some t) := by
    intro v t h
    unfold fresh at h
    have := List.mem_of_getElem? h
    simp at this
  exact ⟨fun v t ht => absurd ht (h v t), fun _ _ => rfl, fun v t ht => absurd ht (h v t), fun _ => 0, fun v t ht => absurd ht (h v t)⟩

theorem sorted_fresh (n : Nat) : SortedTable S (fresh n) := by
  intro v t h
  unfold fresh at h
  have := List.mem_of_getElem? h
  simp at this

theorem solve_spec (hS : FixedArity S) : ∀ (eqs : List (Ty × Ty)) (tab : Table) (θ : Nat → Ty), Tri tab θ → SortedTable S tab →
    (∀ e ∈ eqs, InTable tab e.1 ∧ InTable tab e.2 ∧ e.1.Sorted S ∧ e.2.Sorted S) →
    ∃ r, solve pick tab eqs = some r ∧ Post S tab (fun ρ => ∀ e ∈ eqs, e.1.subst ρ = e.2.subst ρ)
      (fun ρ => ∀ e ∈ eqs, Agree (e.1.subst ρ) (e.2.subst ρ)) r
  | [], tab, θ, ht, hs, _ => ⟨_, rfl, Post.same ht hs (by simp)⟩
  | (c, e) :: rest, tab, θ, ht, hs, he => by
    obtain ⟨e1, e2, e3, e4⟩ := he (c, e) (by simp)
    obtain ⟨r, hr, hp⟩ := unify_spec hS pick _ _ tab θ c e rfl rfl ht hs e1 e2 e3 e4
    rw [solve, hr]
    cases r with
    | error err => exact ⟨_, rfl, fun ρ hρ hg => hp ρ hρ (hg (c, e) (by simp))⟩
    | ok tab' =>
      obtain ⟨p1, ⟨θ', p2⟩, p3, p4, p5, p6⟩ := hp
      obtain ⟨r, hr', hp'⟩ := solve_spec hS rest tab' θ' p2 p3 (fun x hx => by
        obtain ⟨x1, x2, x3⟩ := he x (by simp [hx])
        unfold InTable at x1 x2 ⊢
        rw [p1]
        exact ⟨x1, x2, x3⟩)
      refine ⟨r, hr', ?_⟩
      cases r with
      | error err => exact fun ρ hρ hg => hp' ρ (p6 ρ hρ (hg (c, e) (by simp))) fun x hx => hg x (by simp [hx])
      | ok tab'' =>
        obtain ⟨q1, q2, q3, q4, q5, q6⟩ := hp'
        refine ⟨q1.trans p1, q2, q3, ?_, ?_, ?_⟩
        · rcases q4 with rfl | q4
          · exact p4
          · rcases p4 with rfl | p4
            · exact .inr q4
            · exact .inr (by omega)
        · intro ρ hρ
          obtain ⟨a1, a2⟩ := q5 ρ hρ
          obtain ⟨b1, b2⟩ := p5 ρ a1
          refine ⟨b1, fun x hx => ?_⟩
          rcases List.mem_cons.1 hx with rfl | hx
          · exact b2
          · exact a2 x hx
        · exact fun ρ hρ hg => q6 ρ (p6 ρ hρ (hg (c, e) (by simp))) fun x hx => hg x (by simp [hx])

/-- The type equations are between types with the variables `0 .. n`, made as `S` says. -/
def Wf (S : Head → List (Option Nat) → Prop) (n : Nat) (eqs : List (Ty × Ty)) : Prop :=
  ∀ e ∈ eqs, InTable (fresh n) e.1 ∧ InTable (fresh n) e.2 ∧ e.1.Sorted S ∧ e.2.Sorted S

/-- C38: solving type equations always ends, without panic. -/
theorem C38_ends (hS : FixedArity S) (pick : Nat → Nat → Bool) (n : Nat) (eqs : List (Ty × Ty)) (h : Wf S n eqs) :
    ∃ r, solve pick (fresh n) eqs = some r := by
  obtain ⟨r, hr, _⟩ := solve_spec (pick := pick) hS eqs (fresh n) Ty.var (tri_fresh n) (sorted_fresh n) h
  exact ⟨r, hr⟩

/-- C38: if type equations are refused, no assignment of finite types makes them all true. -/
theorem C38_failure (hS : FixedArity S) (pick : Nat → Nat → Bool) (n : Nat) (eqs : List (Ty × Ty)) (h : Wf S n eqs) (e : Err)
    (hr : solve pick (fresh n) eqs = some (.error e)) (ρ : Nat → Ty) : ∃ e ∈ eqs, e.1.subst ρ ≠ e.2.subst ρ := by
  obtain ⟨r, hr', hp⟩ := solve_spec (pick := pick) hS eqs (fresh n) Ty.var (tri_fresh n) (sorted_fresh n) h
  rw [hr] at hr'
  cases hr'
  by_contra hc
  push Not at hc
  exact hp ρ (fun v t ht => absurd ht fun h => by
    unfold fresh at h
    have := List.mem_of_getElem? h
    simp at this) hc

/-- C38: if type equations are accepted, both sides of every equation, in normal form at the end, have the same shape,
unless one record type has the fields of another one followed by more. -/
theorem C38_success (hS : Tidy S) (pick : Nat → Nat → Bool) (n : Nat) (eqs : List (Ty × Ty)) (h : Wf S n eqs) (tab : Table)
    (hr : solve pick (fresh n) eqs = some (.ok tab)) : ∀ e ∈ eqs, ∃ c d, normalize tab e.1 = some c ∧ normalize tab e.2 = some d ∧
      SameShape c d := by
  obtain ⟨r, hr', hp⟩ := solve_spec (pick := pick) hS.named eqs (fresh n) Ty.var (tri_fresh n) (sorted_fresh n) h
  rw [hr] at hr'
  cases hr'
  obtain ⟨p1, ⟨θ, p2⟩, p3, p4, p5, p6⟩ := hp
  intro e he
  obtain ⟨e1, e2, e3, e4⟩ := h e he
  unfold InTable at e1 e2
  rw [← p1] at e1 e2
  refine ⟨_, _, p2.normalize e1, p2.normalize e2, ?_⟩
  exact sameShape hS ((p5 θ p2.respects).2 e he) (Ty.sorted_subst _ e3 fun v _ => p2.sorted p3 v)
    (Ty.sorted_subst _ e4 fun v _ => p2.sorted p3 v)

mutual

/-- The type `never` does not occur. -/
def Ty.NoNever : Ty → Prop
  | .never => False
  | .var _ => True
  | .node _ args => args.NoNever

/-- The same for the parts. -/
def Args.NoNever : Args → Prop
  | .nil => True
  | .cons _ t rest => t.NoNever ∧ rest.NoNever

end

mutual

theorem SameShape.eq : ∀ {t t' : Ty}, SameShape t t' → t.NoNever → t'.NoNever → t = t'
  | _, _, .left t, h, _ => by rw [Ty.NoNever] at h; exact h.elim
  | _, _, .right t, _, h => by rw [Ty.NoNever] at h; exact h.elim
  | _, _, .var v, _, _ => rfl
  | _, _, .node h, h1, h2 => by
    rw [Ty.NoNever] at h1 h2
    rw [SameParts.eq h h1 h2]

theorem SameParts.eq : ∀ {a b : Args}, SameParts a b → a.NoNever → b.NoNever → a = b
  | _, _, .nil, _, _ => rfl
  | _, _, .cons h h', h1, h2 => by
    rw [Args.NoNever] at h1 h2
    rw [SameShape.eq h h1.1 h2.1, SameParts.eq h' h1.2 h2.2]

end

/-- C38: types of the same shape without `never` are equal. -/
theorem C38_same_shape_equal {t t' : Ty} (h : SameShape t t') (h1 : t.NoNever) (h2 : t'.NoNever) : t = t' := h.eq h1 h2

/-- C38: the accepted assignment is the most general one: any assignment which makes all equations true is a special case of
it. -/
theorem C38_most_general (hS : FixedArity S) (pick : Nat → Nat → Bool) (n : Nat) (eqs : List (Ty × Ty)) (h : Wf S n eqs)
    (tab : Table) (hr : solve pick (fresh n) eqs = some (.ok tab)) (ρ : Nat → Ty) (hρ : ∀ e ∈ eqs, e.1.subst ρ = e.2.subst ρ)
    (t : Ty) (ht : InTable (fresh n) t) : ∃ c, normalize tab t = some c ∧ c.subst ρ = t.subst ρ := by
  obtain ⟨r, hr', hp⟩ := solve_spec (pick := pick) hS eqs (fresh n) Ty.var (tri_fresh n) (sorted_fresh n) h
  rw [hr] at hr'
  cases hr'
  obtain ⟨p1, ⟨θ, p2⟩, p3, p4, p5, p6⟩ := hp
  have ht' : InTable tab t := by
    unfold InTable at ht ⊢
    rw [p1]
    exact ht
  refine ⟨_, p2.normalize ht', p2.agree (p6 ρ (fun v t ht => absurd ht fun h => ?_) hρ) t⟩
  unfold fresh at h
  have := List.mem_of_getElem? h
  simp at this

/-- The integers. -/
def int : Ty := .node (.native 0) .nil

/-- The booleans. -/
def bool : Ty := .node (.native 1) .nil

/-- The record type `{a: int}`. -/
def narrow : Ty := .node .record (.cons (some 0) int .nil)

/-- The record type `{a: int, b: bool}`. -/
def wide : Ty := .node .record (.cons (some 0) int (.cons (some 1) bool .nil))

/-- C38 fails for records: `{a: int}` is accepted where `{a: int, b: bool}` is expected, and the other way round. -/
theorem C38_records_violated (pick : Nat → Nat → Bool) :
    solve pick (fresh 0) [(narrow, wide)] = some (.ok []) ∧ solve pick (fresh 0) [(wide, narrow)] = some (.ok []) ∧
      ∀ ρ, ¬ SameShape (narrow.subst ρ) (wide.subst ρ) := by
  have hn : normalize [] narrow = some narrow := by
    have h : InTable (fresh 0) narrow := by intro v h; simp [narrow, int, Ty.contains, Args.contains] at h
    have := (tri_fresh 0).normalize h
    rw [Ty.subst_var] at this
    exact this
  have hw : normalize [] wide = some wide := by
    have h : InTable (fresh 0) wide := by intro v h; simp [wide, bool, int, Ty.contains, Args.contains] at h
    have := (tri_fresh 0).normalize h
    rw [Ty.subst_var] at this
    exact this
  have hnw : narrow ≠ wide := by simp [narrow, wide]
  have hu : unify pick [] int int = some (.ok []) := by rw [unify, if_pos rfl]
  refine ⟨?_, ?_, ?_⟩
  · rw [solve]
    have : unify pick (fresh 0) narrow wide = some (.ok []) := by
      show unify pick [] narrow wide = _
      rw [unify, if_neg hnw, hn, hw]
      simp only [Option.bind_eq_bind, Option.bind_some]
      rw [if_neg hnw]
      simp only [narrow, wide, checksLength, assertsLength]
      rw [unifyArgs.eq_def]
      simp [swaps, hu]
      rw [unifyArgs.eq_def]
    rw [this]
    rfl
  · rw [solve]
    have : unify pick (fresh 0) wide narrow = some (.ok []) := by
      show unify pick [] wide narrow = _
      rw [unify, if_neg hnw.symm, hn, hw]
      simp only [Option.bind_eq_bind, Option.bind_some]
      rw [if_neg hnw.symm]
      simp only [narrow, wide, checksLength, assertsLength]
      rw [unifyArgs.eq_def]
      simp [swaps, hu]
      rw [unifyArgs.eq_def]
    rw [this]
    rfl
  · intro ρ h
    simp only [narrow, wide, Ty.subst, Args.subst] at h
    cases h with
    | node h =>
      cases h with
      | cons _ h => cases h

/-- Types with fixed arities, and two record types. -/
def exSorts : Head → List (Option Nat) → Prop
  | .native _, ns => ns = []
  | .named k, ns => ns = List.replicate k none
  | .record, ns => ns = [some 0] ∨ ns = [some 1, some 2]
  | .variant, _ => True
  | .tuple, ns => ∀ n ∈ ns, n = none
  | .function, ns => ∀ n ∈ ns, n = none

/-- The hypotheses on the types are met. -/
example : Tidy exSorts where
  named := by intro k ns ms h h'; simp only [exSorts] at h h'; rw [h, h']
  native := by intro k ns ms h h'; simp only [exSorts] at h h'; rw [h, h']
  positional := by
    intro h ns hc hs n hn
    cases h with
    | native k => simp only [exSorts] at hs; subst hs; cases hn
    | named k => simp only [exSorts] at hs; subst hs; exact List.eq_of_mem_replicate hn
    | tuple => exact hs n hn
    | function => exact hs n hn
    | variant => cases hc
    | record => cases hc
  records := by
    intro ns ms h h' hp
    simp only [exSorts] at h h'
    rcases h with rfl | rfl <;> rcases h' with rfl | rfl <;> simp_all

/-- The equations `x0 = (x1, int)`, `x1 = {a: x2}`, `(x2) -> bool = (int) -> bool`. -/
def exEqs : List (Ty × Ty) :=
  [(.var 0, .node .tuple (.cons none (.var 1) (.cons none int .nil))),
    (.var 1, .node .record (.cons (some 0) (.var 2) .nil)),
    (.node .function (.cons none (.var 2) (.cons none bool .nil)), .node .function (.cons none int (.cons none bool .nil)))]

/-- They meet the hypotheses. -/
example : Wf exSorts 3 exEqs := by
  intro e he
  simp only [exEqs, List.mem_cons, List.not_mem_nil, or_false] at he
  rcases he with rfl | rfl | rfl <;>
    refine ⟨?_, ?_, ?_, ?_⟩ <;>
    simp [InTable, fresh, Ty.contains, Args.contains, Ty.Sorted, Args.Sorted, Args.names, exSorts, int, bool]

/-- They have a solution, so they are accepted. -/
example : ∃ ρ : Nat → Ty, ∀ e ∈ exEqs, e.1.subst ρ = e.2.subst ρ := by
  refine ⟨fun v => if v = 0 then .node .tuple (.cons none (.node .record (.cons (some 0) int .nil)) (.cons none int .nil))
    else if v = 1 then .node .record (.cons (some 0) int .nil) else int, ?_⟩
  intro e he
  simp only [exEqs, List.mem_cons, List.not_mem_nil, or_false] at he
  rcases he with rfl | rfl | rfl <;> simp [Ty.subst, Args.subst, int, bool]

end Ferlium.Unify
