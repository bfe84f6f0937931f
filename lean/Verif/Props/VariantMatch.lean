import Verif.Model.VariantMatch
import Verif.Props.Match

/-!
C67: matches on variants.
-/
namespace Ferlium.Match
open Ferlium.Unify Ferlium.Coherence

/-- The payload of a variant has a type: nothing, or the components of a tuple or of a record. -/
inductive HasPayload : Vals → Ty → Prop
  | unit : HasPayload .nil (.node (.native 2) .nil)
  | tuple {vs args} : HasTys vs args → HasPayload vs (.node .tuple args)
  | record {vs args} : HasTys vs args → HasPayload vs (.node .record args)

/-- A pattern binds variables to parts of a payload: all components of a tuple in order, all fields of a record by their names, or
some fields of a record if it ends with `..`. -/
inductive Binds : VPat → Ty → Vals → List (Nat × Val) → Prop
  | none (tag k) : Binds ⟨tag, k, []⟩ (.node (.native 2) .nil) .nil []
  | restNone (tag) : Binds ⟨tag, false, [.rest]⟩ (.node (.native 2) .nil) .nil []
  | tuple (tag args) {env : List (Nat × Val)} : Binds ⟨tag, true, env.map fun x => .named x.1⟩ (.node .tuple args) (ofList (env.map (·.2))) env
  | record (tag) {args : Args} {vs : Vals} {env : List (Nat × Val)} : (∀ x ∈ env, ∃ ty, field args vs x.1 = some (ty, x.2)) →
      (∀ n ∈ args.names, ∃ x ∈ env, n = some x.1) → Binds ⟨tag, false, env.map fun x => .named x.1⟩ (.node .record args) vs env
  | rest (tag) {args : Args} {vs : Vals} {env : List (Nat × Val)} : (∀ x ∈ env, ∃ ty, field args vs x.1 = some (ty, x.2)) →
      Binds ⟨tag, false, env.map (fun x => .named x.1) ++ [.rest]⟩ (.node .record args) vs env

/-- A part with a name. -/
def Part (args : Args) (n : Nat) (t : Ty) : Prop :=
  match args with
  | .nil => False
  | .cons m u rest => (m = some n ∧ u = t) ∨ Part rest n t

/-! ### The scan of the patterns -/

theorem scan_ok {tuple : Bool} : ∀ {vars : List PVar} {seen names : List Nat} {rest : Bool}, scan tuple vars seen = .ok (names, rest) →
    vars = names.map .named ++ (if rest then [.rest] else []) ∧ (rest = true → tuple = false) ∧ names.Nodup ∧ ∀ n ∈ names, n ∉ seen
  | [], seen, names, rest, h => by
    simp only [scan, Except.ok.injEq, Prod.mk.injEq] at h
    obtain ⟨rfl, rfl⟩ := h
    simp
  | .named n :: l, seen, names, rest, h => by
    rw [scan] at h
    split at h
    · cases h
    · rename_i hn
      split at h
      · cases h
      · rename_i r hr
        simp only [Except.ok.injEq, Prod.mk.injEq] at h
        obtain ⟨rfl, rfl⟩ := h
        obtain ⟨h1, h2, h3, h4⟩ := scan_ok hr
        refine ⟨by simp [← h1], h2, List.nodup_cons.2 ⟨fun hm => (h4 n hm) (by simp), h3⟩, fun m hm => ?_⟩
        rcases List.mem_cons.1 hm with rfl | hm
        · exact hn
        · exact fun hs => h4 m hm (by simp [hs])
  | .rest :: l, seen, names, rest, h => by
    rw [scan] at h
    split at h
    · cases h
    · split at h
      · cases h
      · rename_i ht hl
        simp only [Except.ok.injEq, Prod.mk.injEq] at h
        obtain ⟨rfl, rfl⟩ := h
        simp only [ne_eq, not_not] at hl
        subst hl
        simp_all

variable {α : Type}

/-- An arm and its scan. -/
def Scans (x : VPat × α) (s : Scanned α) : Prop :=
  s.tag = x.1.tag ∧ s.tuple = x.1.tuple ∧ s.body = x.2 ∧ scan x.1.tuple x.1.vars [] = .ok (s.names, s.rest)

theorem scanArms_ok : ∀ {arms : List (VPat × α)} {k n : Nat} {seen : List Nat} {l : List (Scanned α)}, scanArms k arms seen = .ok (l, n) →
    List.Forall₂ Scans arms l ∧ (l.map (·.tag)).Nodup ∧ (∀ s ∈ l, s.tag ∉ seen ∧ s.first + s.names.length < n) ∧ k ≤ n
  | [], k, n, seen, l, h => by
    simp only [scanArms, Except.ok.injEq, Prod.mk.injEq] at h
    obtain ⟨rfl, rfl⟩ := h
    simp
  | (p, a) :: arms, k, n, seen, l, h => by
    rw [scanArms] at h
    split at h
    · cases h
    · rename_i hs
      split at h
      · cases h
      · rename_i names rest hn
        split at h
        · cases h
        · rename_i r hr
          simp only [Except.ok.injEq, Prod.mk.injEq] at h
          obtain ⟨rfl, rfl⟩ := h
          obtain ⟨h1, h2, h3, h4⟩ := scanArms_ok hr
          refine ⟨.cons ⟨rfl, rfl, rfl, hn⟩ h1, ?_, ?_, by omega⟩
          · rw [List.map_cons, List.nodup_cons]
            refine ⟨fun hm => ?_, h2⟩
            obtain ⟨s, hs', he⟩ := List.mem_map.1 hm
            exact (h3 s hs').1 (by rw [he]; simp)
          · intro s hm
            rcases List.mem_cons.1 hm with rfl | hm
            · exact ⟨hs, by dsimp only; omega⟩
            · exact ⟨fun hx => (h3 s hm).1 (by simp [hx]), (h3 s hm).2⟩

/-! ### Parts -/

theorem insertType_perm (x : Nat × Ty) : ∀ l, (insertType x l).Perm (x :: l)
  | [] => .refl _
  | y :: l => by
    unfold insertType
    split
    · exact .refl _
    · exact ((insertType_perm x l).cons y).trans (.swap x y l)

theorem sortTypes_perm : ∀ l, (sortTypes l).Perm l
  | [] => .refl _
  | x :: l => (insertType_perm x _).trans ((sortTypes_perm l).cons x)

theorem part_named {n : Nat} {t : Ty} : ∀ {l : List (Nat × Ty)}, Part (named l) n t ↔ (n, t) ∈ l
  | [] => by simp [named, Part]
  | x :: l => by
    rw [named, Part, part_named, List.mem_cons, Prod.ext_iff]
    simp [eq_comm]

theorem subst_named (ρ : Nat → Ty) : ∀ l : List (Nat × Ty), (named l).subst ρ = named (l.map fun x => (x.1, x.2.subst ρ))
  | [] => rfl
  | x :: l => by rw [named, Args.subst, subst_named ρ l]; rfl

theorem subst_unnamed (ρ : Nat → Ty) : ∀ l : List Ty, (unnamed l).subst ρ = unnamed (l.map (·.subst ρ))
  | [] => rfl
  | x :: l => by rw [unnamed, Args.subst, subst_unnamed ρ l]; rfl

theorem lookup_part {n : Nat} {t : Ty} : ∀ {args : Args}, lookup n args = some t → Part args n t
  | .nil, h => by cases h
  | .cons m u rest, h => by
    rw [lookup] at h
    split at h
    · cases h
      exact .inl ⟨‹_›, rfl⟩
    · exact .inr (lookup_part h)

theorem part_names {n : Nat} {t : Ty} : ∀ {args : Args}, Part args n t → some n ∈ args.names
  | .cons m u rest, h => by
    rw [Part] at h
    rw [Args.names]
    rcases h with ⟨rfl, _⟩ | h
    · simp
    · exact List.mem_cons_of_mem _ (part_names h)

theorem part_unique {n : Nat} {t u : Ty} : ∀ {args : Args}, args.names.Nodup → Part args n t → Part args n u → t = u
  | .cons m v rest, hn, h, h' => by
    rw [Args.names, List.nodup_cons] at hn
    rw [Part] at h h'
    rcases h with ⟨rfl, rfl⟩ | h
    · rcases h' with ⟨_, rfl⟩ | h'
      · rfl
      · exact absurd (part_names h') hn.1
    · rcases h' with ⟨rfl, _⟩ | h'
      · exact absurd (part_names h) hn.1
      · exact part_unique hn.2 h h'

theorem part_lookup {n : Nat} {t : Ty} : ∀ {args : Args}, args.names.Nodup → Part args n t → lookup n args = some t
  | .cons m v rest, hn, h => by
    rw [Args.names, List.nodup_cons] at hn
    rw [Part] at h
    rw [lookup]
    rcases h with ⟨rfl, rfl⟩ | h
    · rw [if_pos rfl]
    · rw [if_neg, part_lookup hn.2 h]
      rintro rfl
      exact hn.1 (part_names h)

theorem names_named : ∀ l : List (Nat × Ty), (named l).names = l.map fun x => some x.1
  | [] => rfl
  | x :: l => by rw [named, Args.names, names_named l]; rfl

/-- The field at the position of a name. -/
theorem position_field {n : Nat} : ∀ {args : Args} {vs : Vals}, HasTys vs args → some n ∈ args.names →
    ∃ i t v, position n args = some i ∧ component vs i = some v ∧ field args vs n = some (t, v)
  | _, _, .nil, h => by simp [Args.names] at h
  | _, _, .cons (n := m) (v := v) (t := t) h1 h2, h => by
    by_cases he : m = some n
    · exact ⟨0, t, v, by rw [position, if_pos he], rfl, by rw [field, if_pos he]⟩
    · rw [Args.names, List.mem_cons] at h
      obtain ⟨i, t, v, i1, i2, i3⟩ := position_field h2 (h.resolve_left fun h => he h.symm)
      exact ⟨i + 1, t, v, by rw [position, if_neg he, i1]; rfl, by rw [component, i2], by rw [field, if_neg he, i3]⟩

/-- The position only depends on the names. -/
theorem position_congr {n : Nat} : ∀ {a b : Args}, a.names = b.names → position n a = position n b
  | .nil, .nil, _ => rfl
  | .nil, .cons .., h => by simp [Args.names] at h
  | .cons .., .nil, h => by simp [Args.names] at h
  | .cons m t a, .cons m' t' b, h => by
    rw [Args.names, Args.names, List.cons.injEq] at h
    rw [position, position, h.1, position_congr h.2]

/-- All variables of a record pattern. -/
theorem bind_fields {args : Args} {vs : Vals} (hv : HasTys vs args) : ∀ {names : List Nat}, (∀ n ∈ names, some n ∈ args.names) →
    ∃ bs env, names.mapM (fun n => (position n args).map (n, ·)) = some bs ∧ bindAll vs bs = some env ∧ env.map (·.1) = names ∧
      ∀ x ∈ env, ∃ ty, field args vs x.1 = some (ty, x.2)
  | [], _ => ⟨[], [], rfl, rfl, rfl, by simp⟩
  | n :: names, h => by
    obtain ⟨i, t, v, i1, i2, i3⟩ := position_field hv (h n (by simp))
    obtain ⟨bs, env, h1, h2, h3, h4⟩ := bind_fields hv (names := names) fun m hm => h m (by simp [hm])
    refine ⟨(n, i) :: bs, (n, v) :: env, by rw [List.mapM_cons, i1, h1]; rfl, ?_, by simp [h3], ?_⟩
    · unfold bindAll at h2 ⊢
      rw [List.mapM_cons]
      dsimp only
      rw [i2, h2]
      rfl
    · intro x hx
      rcases List.mem_cons.1 hx with rfl | hx
      · exact ⟨t, i3⟩
      · exact h4 x hx

/-- All variables of a tuple pattern. -/
theorem bind_tuple : ∀ {names : List Nat} {tys : List Ty} {vs : Vals} {k : Nat} {pre : Vals}, HasTys vs (unnamed tys) → tys.length = names.length →
    (∀ i, component pre (k + i) = component vs i) → ∃ env, bindAll pre (names.zipIdx k) = some env ∧ env.map (·.1) = names ∧ vs = ofList (env.map (·.2))
  | [], [], vs, k, pre, hv, _, _ => by
    cases hv
    exact ⟨[], rfl, rfl, rfl⟩
  | n :: names, t :: tys, vs, k, pre, hv, hl, hc => by
    rw [unnamed] at hv
    cases hv with
    | cons h1 h2 =>
      rename_i v vs
      obtain ⟨env, i1, i2, i3⟩ := bind_tuple (k := k + 1) (pre := pre) (names := names) h2 (by simpa using hl) (fun i => by
        have := hc (i + 1)
        rw [component] at this
        rw [← this]
        congr 1
        omega)
      refine ⟨(n, v) :: env, ?_, by simp [i2], by rw [List.map_cons, ofList, ← i3]⟩
      unfold bindAll at i1 ⊢
      rw [List.zipIdx_cons, List.mapM_cons]
      dsimp only
      have := hc 0
      rw [component, Nat.add_zero] at this
      rw [this, i1]
      rfl
  | [], _ :: _, _, _, _, _, hl, _ => by simp at hl
  | _ :: _, [], _, _, _, _, hl, _ => by simp at hl

theorem inner_names (k : Nat) (names : List Nat) : (inner k names).map (·.1) = names := by
  unfold inner
  rw [List.map_map]
  have : ((fun x => x.1) ∘ fun x : Nat × Nat => (x.1, Ty.var (k + x.2))) = Prod.fst := rfl
  rw [this, List.zipIdx_map_fst]

/-- What is known about the payload of an arm is enough for its variables. -/
theorem bindings_ok {x : VPat × α} {s : Scanned α} (hx : Scans x s) {t T : Ty} {ρ : Nat → Ty} (hT : payloadOf t s.tag = .ok T)
    (hP : s.payload.subst ρ = T) (hrest : s.rest = true → s.names ≠ [] → ∃ args, T = .node .record args ∧ ∀ n ∈ s.names, some n ∈ args.names)
    {vs : Vals} (hv : HasPayload vs T) :
    ∃ bs env, bindings t s = some bs ∧ bindAll vs bs = some env ∧ Binds x.1 T vs env := by
  obtain ⟨⟨tag, tuple, vars⟩, body⟩ := x
  obtain ⟨stag, stuple, names, rest, first, sbody⟩ := s
  obtain ⟨h1, h2, h3, h4⟩ := hx
  dsimp only at h1 h2 h3 h4 hT hP hrest ⊢
  subst h1 h2 h3
  obtain ⟨g1, g2, g3, g4⟩ := scan_ok h4
  unfold Scanned.payload payload at hP
  dsimp only at hP
  by_cases hn : names = []
  · subst hn
    rw [if_pos rfl, unitTy, Ty.subst, Args.subst] at hP
    subst hP
    cases hv
    simp only [List.map_nil, List.nil_append] at g1
    subst g1
    refine ⟨[], [], ?_, rfl, ?_⟩
    · unfold bindings
      dsimp only
      rw [hT]
      cases stuple <;> cases rest <;> simp
    · cases rest
      · exact .none _ _
      · rw [g2 rfl]
        exact .restNone _
  · rw [if_neg hn] at hP
    cases stuple with
    | true =>
      have hr : rest = false := by
        cases rest
        · rfl
        · exact absurd (g2 rfl) (by simp)
      subst hr
      simp only [Bool.false_eq_true, if_false, List.append_nil] at g1
      rw [if_pos rfl, Ty.subst, subst_unnamed] at hP
      subst hP
      cases hv with
      | tuple hv =>
        obtain ⟨env, i1, i2, i3⟩ := bind_tuple (names := names) (k := 0) (pre := vs) hv (by simp [inner]) (fun i => by rw [Nat.zero_add])
        refine ⟨names.zipIdx, env, by simp [bindings], i1, ?_⟩
        subst i2
        rw [i3, g1]
        have : (env.map (·.1)).map PVar.named = env.map fun x => .named x.1 := by rw [List.map_map]; rfl
        rw [this]
        exact .tuple _ _
    | false =>
      rw [if_neg (by simp)] at hP
      cases rest with
      | true =>
        obtain ⟨args, rfl, ha⟩ := hrest rfl hn
        cases hv with
        | record hv =>
          obtain ⟨bs, env, i1, i2, i3, i4⟩ := bind_fields hv ha
          refine ⟨bs, env, ?_, i2, ?_⟩
          · unfold bindings
            dsimp only
            rw [if_neg (by simp), if_pos rfl, hT]
            exact i1
          · subst i3
            have : (env.map (·.1)).map PVar.named = env.map fun x => .named x.1 := by rw [List.map_map]; rfl
            rw [g1, this]
            exact .rest _ i4
      | false =>
        rw [if_neg (by simp), Ty.subst, subst_named] at hP
        subst hP
        cases hv with
        | record hv =>
          have hnames : (named ((sortTypes (inner first names)).map fun x => (x.1, x.2.subst ρ))).names = (named (sortTypes (inner first names))).names := by
            rw [names_named, names_named, List.map_map]
            rfl
          have hall : ∀ n, some n ∈ (named (sortTypes (inner first names))).names ↔ n ∈ names := by
            intro n
            have : (fun x : Nat × Ty => some x.1) = some ∘ (·.1) := rfl
            rw [names_named, this, ← List.map_map, List.mem_map]
            simp only [Option.some.injEq, exists_eq_right]
            rw [((sortTypes_perm _).map _).mem_iff, inner_names]
          obtain ⟨bs, env, i1, i2, i3, i4⟩ := bind_fields hv (names := names) fun n hn => by rw [hnames]; exact (hall n).2 hn
          refine ⟨bs, env, ?_, i2, ?_⟩
          · unfold bindings
            dsimp only
            rw [if_neg (by simp), if_neg (by simp), ← i1]
            congr 1
            funext n
            rw [position_congr hnames]
          · simp only [Bool.false_eq_true, if_false, List.append_nil] at g1
            have hcov : ∀ n ∈ (named ((sortTypes (inner first names)).map fun x => (x.1, x.2.subst ρ))).names, ∃ x ∈ env, n = some x.1 := by
              intro n hn
              rw [hnames] at hn
              cases n with
              | none => rw [names_named] at hn; simp at hn
              | some n =>
                have := (hall n).1 hn
                rw [← i3] at this
                obtain ⟨x, hx, rfl⟩ := List.mem_map.1 this
                exact ⟨x, hx, rfl⟩
            subst i3
            have : (env.map (·.1)).map PVar.named = env.map fun x => .named x.1 := by rw [List.map_map]; rfl
            rw [g1, this]
            exact .record _ i4 hcov

/-! ### The equations -/

variable {S : Head → List (Option Nat) → Prop} {pick : Nat → Nat → Bool}

/-- A type in equations over `n` variables. -/
def Good (S : Head → List (Option Nat) → Prop) (n : Nat) (t : Ty) : Prop := (∀ w, t.contains w = true → w < n) ∧ t.Sorted S ∧ t.NoNever

/-- The same for parts. -/
def GoodArgs (S : Head → List (Option Nat) → Prop) (n : Nat) (a : Args) : Prop := (∀ w, a.contains w = true → w < n) ∧ a.Sorted S ∧ a.NoNever

theorem good_named {n : Nat} : ∀ {l : List (Nat × Ty)}, (∀ x ∈ l, Good S n x.2) → GoodArgs S n (named l)
  | [], _ => ⟨by simp [named, Args.contains], by simp [named, Args.Sorted], by simp [named, Args.NoNever]⟩
  | x :: l, h => by
    obtain ⟨h1, h2, h3⟩ := h x (by simp)
    obtain ⟨i1, i2, i3⟩ := good_named (l := l) fun y hy => h y (by simp [hy])
    refine ⟨fun w hw => ?_, by rw [named, Args.Sorted]; exact ⟨h2, i2⟩, by rw [named, Args.NoNever]; exact ⟨h3, i3⟩⟩
    rw [named, Args.contains, Bool.or_eq_true] at hw
    exact hw.elim (h1 w) (i1 w)

theorem good_unnamed {n : Nat} : ∀ {l : List Ty}, (∀ x ∈ l, Good S n x) → GoodArgs S n (unnamed l)
  | [], _ => ⟨by simp [unnamed, Args.contains], by simp [unnamed, Args.Sorted], by simp [unnamed, Args.NoNever]⟩
  | x :: l, h => by
    obtain ⟨h1, h2, h3⟩ := h x (by simp)
    obtain ⟨i1, i2, i3⟩ := good_unnamed (l := l) fun y hy => h y (by simp [hy])
    refine ⟨fun w hw => ?_, by rw [unnamed, Args.Sorted]; exact ⟨h2, i2⟩, by rw [unnamed, Args.NoNever]; exact ⟨h3, i3⟩⟩
    rw [unnamed, Args.contains, Bool.or_eq_true] at hw
    exact hw.elim (h1 w) (i1 w)

theorem good_node {n : Nat} {h : Head} {a : Args} (ha : GoodArgs S n a) (hs : S h a.names) : Good S n (.node h a) :=
  ⟨fun w hw => ha.1 w (by rwa [Ty.contains] at hw), by rw [Ty.Sorted]; exact ⟨hs, ha.2.1⟩, by rw [Ty.NoNever]; exact ha.2.2⟩

theorem good_var {n v : Nat} (h : v < n) : Good S n (.var v) :=
  ⟨fun w hw => by simp [Ty.contains] at hw; omega, by rw [Ty.Sorted]; trivial, by rw [Ty.NoNever]; trivial⟩

theorem good_part {n m : Nat} {u : Ty} : ∀ {a : Args}, GoodArgs S n a → Part a m u → Good S n u
  | .cons m' t rest, ⟨h1, h2, h3⟩, hp => by
    rw [Args.Sorted] at h2
    rw [Args.NoNever] at h3
    rw [Part] at hp
    rcases hp with ⟨_, rfl⟩ | hp
    · exact ⟨fun w hw => h1 w (by rw [Args.contains, hw]; rfl), h2.1, h3.1⟩
    · exact good_part ⟨fun w hw => h1 w (by rw [Args.contains, hw, Bool.or_true]), h2.2, h3.2⟩ hp

theorem insertType_sorted (x : Nat × Ty) : ∀ {l : List (Nat × Ty)}, l.Pairwise (fun a b => a.1 ≤ b.1) →
    (insertType x l).Pairwise fun a b => a.1 ≤ b.1
  | [], _ => by simp [insertType]
  | y :: l, h => by
    rw [List.pairwise_cons] at h
    unfold insertType
    split
    · rename_i hxy
      refine List.pairwise_cons.2 ⟨fun z hz => ?_, List.pairwise_cons.2 h⟩
      rcases List.mem_cons.1 hz with rfl | hz
      · exact hxy
      · exact hxy.trans (h.1 z hz)
    · rename_i hxy
      refine List.pairwise_cons.2 ⟨fun z hz => ?_, insertType_sorted x h.2⟩
      rcases List.mem_cons.1 ((insertType_perm x l).mem_iff.1 hz) with rfl | hz
      · omega
      · exact h.1 z hz

theorem sortTypes_sorted : ∀ l, (sortTypes l).Pairwise fun a b => a.1 ≤ b.1
  | [] => .nil
  | x :: l => insertType_sorted x (sortTypes_sorted l)

/-- The names of the variables of a pattern. -/
def VPat.names (p : VPat) : List Nat := p.vars.filterMap fun v => match v with
  | .named n => some n
  | .rest => none

/-- The types which the patterns make are among those which the assumptions are about. -/
structure Fair (S : Head → List (Option Nat) → Prop) (pats : List VPat) : Prop where
  unit : S (.native 2) []
  tuple : ∀ k, S .tuple (List.replicate k none)
  record : ∀ p ∈ pats, p.tuple = false → .rest ∉ p.vars → p.vars ≠ [] → ∀ l : List Nat, l.Perm p.names → l.Pairwise (· ≤ ·) → S .record (l.map some)
  variant : ∀ l : List Nat, l.Perm (pats.map (·.tag)) → l.Pairwise (· ≤ ·) → S .variant (l.map some)

theorem scans_names {x : VPat × α} {s : Scanned α} (h : Scans x s) : x.1.names = s.names := by
  obtain ⟨h1, h2, h3, h4⟩ := h
  obtain ⟨g1, -⟩ := scan_ok h4
  unfold VPat.names
  rw [g1, List.filterMap_append, List.filterMap_map]
  have : ((fun v => match v with | .named n => some n | .rest => none) ∘ PVar.named : Nat → Option Nat) = some := rfl
  rw [this, List.filterMap_some]
  split <;> simp

theorem names_sorted (l : List (Nat × Ty)) : (named (sortTypes l)).names = ((sortTypes l).map (·.1)).map some := by
  rw [names_named, List.map_map]
  rfl

theorem unnamed_names : ∀ l : List Ty, (unnamed l).names = List.replicate l.length none
  | [] => rfl
  | _ :: l => by rw [unnamed, Args.names, unnamed_names l]; rfl

theorem inner_good {k n : Nat} {names : List Nat} (h : k + names.length ≤ n) : ∀ x ∈ inner k names, Good S n x.2 := by
  intro x hx
  unfold inner at hx
  obtain ⟨y, hy, rfl⟩ := List.mem_map.1 hx
  have := List.snd_lt_of_mem_zipIdx hy
  exact good_var (by omega)

theorem payload_good {pats : List VPat} (hF : Fair S pats) {x : VPat × α} {s : Scanned α} (hx : Scans x s) (hm : x.1 ∈ pats) {n : Nat}
    (hn : s.first + s.names.length < n) : Good S n s.payload := by
  unfold Scanned.payload payload
  split
  · exact good_node (a := .nil) ⟨by simp [Args.contains], by simp [Args.Sorted], by simp [Args.NoNever]⟩ hF.unit
  · rename_i hnames
    split
    · refine good_node (good_unnamed fun y hy => ?_) (by rw [unnamed_names]; exact hF.tuple _)
      obtain ⟨z, hz, rfl⟩ := List.mem_map.1 hy
      exact inner_good (by omega) z hz
    · split
      · exact good_var hn
      · rename_i htup hrest
        have hvars := (scan_ok hx.2.2.2).1
        rw [if_neg hrest, List.append_nil] at hvars
        refine good_node (good_named fun y hy => inner_good (by omega) y ((sortTypes_perm _).mem_iff.1 hy)) ?_
        rw [names_sorted]
        refine hF.record x.1 hm (by rw [← hx.2.1]; simpa using htup) (by rw [hvars]; simp) (by rw [hvars]; simpa using hnames) _ ?_ (List.pairwise_map.2 (sortTypes_sorted _))
        rw [scans_names hx]
        conv_rhs => rw [← inner_names s.first s.names]
        exact (sortTypes_perm _).map _

theorem payloadOf_part {t T : Ty} {tag : Nat} (h : payloadOf t tag = .ok T) : ∃ args, t = .node .variant args ∧ Part args tag T := by
  unfold payloadOf at h
  split at h
  · split at h
    · cases h
      exact ⟨_, rfl, lookup_part ‹_›⟩
    · cases h
  · cases h

theorem good_payloadOf {n : Nat} {t T : Ty} {tag : Nat} (ht : Good S n t) (h : payloadOf t tag = .ok T) : Good S n T := by
  obtain ⟨args, rfl, hp⟩ := payloadOf_part h
  obtain ⟨h1, h2, h3⟩ := ht
  rw [Ty.Sorted] at h2
  rw [Ty.NoNever] at h3
  exact good_part ⟨fun w hw => h1 w (by rw [Ty.contains]; exact hw), h2.2, h3⟩ hp

theorem hasVariants_ok {t : Ty} : ∀ {arms : List (Scanned α)} {l : List (Ty × Ty)}, hasVariants t arms = .ok l →
    (∀ s ∈ arms, ∃ T, payloadOf t s.tag = .ok T ∧ (T, s.payload) ∈ l) ∧
      ∀ e ∈ l, ∃ s ∈ arms, payloadOf t s.tag = .ok e.1 ∧ e.2 = s.payload
  | [], l, h => by
    cases h
    simp
  | s :: arms, l, h => by
    rw [hasVariants] at h
    split at h
    · cases h
    · rename_i ty hty
      split at h
      · cases h
      · rename_i l' hl'
        cases h
        obtain ⟨h1, h2⟩ := hasVariants_ok hl'
        refine ⟨fun s' hs' => ?_, fun e he => ?_⟩
        · rcases List.mem_cons.1 hs' with rfl | hs'
          · exact ⟨ty, hty, by simp⟩
          · obtain ⟨T, i1, i2⟩ := h1 s' hs'
            exact ⟨T, i1, by simp [i2]⟩
        · rcases List.mem_cons.1 he with rfl | he
          · exact ⟨s, by simp, hty, rfl⟩
          · obtain ⟨s', i1, i2⟩ := h2 e he
            exact ⟨s', by simp [i1], i2⟩

theorem projections_ok {args : Args} : ∀ {vars : List (Nat × Ty)} {l : List (Ty × Ty)}, projections args vars = .ok l →
    (∀ x ∈ vars, some x.1 ∈ args.names) ∧ ∀ e ∈ l, ∃ x ∈ vars, Part args x.1 e.1 ∧ e.2 = x.2
  | [], l, h => by
    cases h
    simp
  | (n, v) :: vars, l, h => by
    rw [projections] at h
    split at h
    · cases h
    · rename_i ty hty
      split at h
      · cases h
      · rename_i l' hl'
        cases h
        obtain ⟨h1, h2⟩ := projections_ok hl'
        refine ⟨fun x hx => ?_, fun e he => ?_⟩
        · rcases List.mem_cons.1 hx with rfl | hx
          · exact part_names (lookup_part hty)
          · exact h1 x hx
        · rcases List.mem_cons.1 he with rfl | he
          · exact ⟨(n, v), by simp, lookup_part hty, rfl⟩
          · obtain ⟨x, i1, i2⟩ := h2 e he
            exact ⟨x, by simp [i1], i2⟩

theorem restEquations_ok {t : Ty} : ∀ {arms : List (Scanned α)} {l : List (Ty × Ty)}, restEquations t arms = .ok l →
    (∀ s ∈ arms, s.rest = true → s.names ≠ [] → ∃ args, payloadOf t s.tag = .ok (.node .record args) ∧ ∀ n ∈ s.names, some n ∈ args.names) ∧
      ∀ e ∈ l, ∃ s ∈ arms, ∃ args, payloadOf t s.tag = .ok (.node .record args) ∧ ∃ x ∈ inner s.first s.names, Part args x.1 e.1 ∧ e.2 = x.2
  | [], l, h => by
    cases h
    simp
  | s :: arms, l, h => by
    rw [restEquations] at h
    split at h
    · cases h
    · rename_i l' hl'
      obtain ⟨h1, h2⟩ := restEquations_ok hl'
      have hlift : ∀ e ∈ l', ∃ s' ∈ s :: arms, ∃ args, payloadOf t s'.tag = .ok (.node .record args) ∧
          ∃ x ∈ inner s'.first s'.names, Part args x.1 e.1 ∧ e.2 = x.2 := fun e he => by
        obtain ⟨s', i1, i2⟩ := h2 e he
        exact ⟨s', by simp [i1], i2⟩
      split at h
      · rename_i hc
        split at h
        · cases h
        · rename_i args hargs
          split at h
          · cases h
          · rename_i l'' hl''
            cases h
            obtain ⟨j1, j2⟩ := projections_ok hl''
            refine ⟨fun s' hs' hr hne => ?_, fun e he => ?_⟩
            · rcases List.mem_cons.1 hs' with rfl | hs'
              · refine ⟨args, hargs, fun n hn => ?_⟩
                rw [← inner_names s'.first s'.names] at hn
                obtain ⟨x, hx, rfl⟩ := List.mem_map.1 hn
                exact j1 x hx
              · exact h1 s' hs' hr hne
            · rcases List.mem_append.1 he with he | he
              · obtain ⟨x, hx, k1, k2⟩ := j2 e he
                exact ⟨s, by simp, args, hargs, x, hx, k1, k2⟩
              · exact hlift e he
        · cases h
      · rename_i hc
        cases h
        refine ⟨fun s' hs' hr hne => ?_, hlift⟩
        rcases List.mem_cons.1 hs' with rfl | hs'
        · exact absurd ⟨hr, hne⟩ hc
        · exact h1 s' hs' hr hne

theorem scanArms_count : ∀ {arms : List (VPat × α)} {k n : Nat} {seen : List Nat} {l : List (Scanned α)}, scanArms k arms seen = .ok (l, n) →
    n = k + (arms.map fun a => a.1.names.length + 1).sum
  | [], k, n, seen, l, h => by
    simp only [scanArms, Except.ok.injEq, Prod.mk.injEq] at h
    simp [h.2]
  | (p, a) :: arms, k, n, seen, l, h => by
    rw [scanArms] at h
    split at h
    · cases h
    · split at h
      · cases h
      · rename_i names rest hn
        split at h
        · cases h
        · rename_i r hr
          simp only [Except.ok.injEq, Prod.mk.injEq] at h
          have := scanArms_count (l := r.1) (n := r.2) hr
          have hx : p.names = names := scans_names (x := (p, a)) (s := ⟨p.tag, p.tuple, names, rest, k, a⟩) ⟨rfl, rfl, rfl, hn⟩
          rw [List.map_cons, List.sum_cons, ← h.2, this]
          dsimp only
          rw [hx]
          omega

theorem scans_tags {arms : List (VPat × α)} {l : List (Scanned α)} (hl : List.Forall₂ Scans arms l) :
    l.map (·.tag) = (arms.map (·.1)).map (·.tag) := by
  induction hl with
  | nil => rfl
  | cons h1 _ ih => rw [List.map_cons, List.map_cons, List.map_cons, h1.1, ih]

/-- All equations are between good types. -/
theorem equations_good {t : Ty} {n : Nat} (ht : Good S n t) {arms : List (VPat × α)} {l : List (Scanned α)} (hF : Fair S (arms.map (·.1)))
    (hl : List.Forall₂ Scans arms l) (hn : ∀ s ∈ l, s.first + s.names.length < n) (hpos : 0 < n) {extra : List (Ty × Ty)}
    (hextra : ∀ e ∈ extra, Good S n e.1 ∧ Good S n e.2) {d : Bool} {eqs : List (Ty × Ty)} (h : equations t extra l d = .ok eqs) :
    ∀ e ∈ eqs, Good S n e.1 ∧ Good S n e.2 := by
  have hpay : ∀ s ∈ l, Good S n s.payload := fun s hs => by
    obtain ⟨x, hx, hxs⟩ := forall₂_mem hl s hs
    exact payload_good hF hxs (List.mem_map.2 ⟨x, hx, rfl⟩) (hn s hs)
  unfold equations at h
  split at h
  · cases h
  · rename_i fields hfields
    have hfs : ∀ e ∈ fields, Good S n e.1 ∧ Good S n e.2 := by
      intro e he
      obtain ⟨s, hs, args, h1, x, hx, h2, h3⟩ := (restEquations_ok hfields).2 e he
      have hg := good_payloadOf ht h1
      obtain ⟨g1, g2, g3⟩ := hg
      rw [Ty.Sorted] at g2
      rw [Ty.NoNever] at g3
      refine ⟨good_part ⟨fun w hw => g1 w (by rw [Ty.contains]; exact hw), g2.2, g3⟩ h2, ?_⟩
      rw [h3]
      exact inner_good (by have := hn s hs; omega) x hx
    split at h
    · split at h
      · cases h
      · rename_i hv hhv
        cases h
        intro e he
        rcases List.mem_append.1 he with he | he
        · exact hextra e he
        · rcases List.mem_cons.1 he with rfl | he
          · exact ⟨ht, good_var hpos⟩
          · rcases List.mem_append.1 he with he | he
            · obtain ⟨s, hs, h1, h2⟩ := (hasVariants_ok hhv).2 e he
              exact ⟨good_payloadOf ht h1, by rw [h2]; exact hpay s hs⟩
            · exact hfs e he
    · cases h
      intro e he
      rcases List.mem_append.1 he with he | he
      · exact hextra e he
      · rcases List.mem_cons.1 he with rfl | he
        · refine ⟨good_var hpos, good_node (good_named fun x hx => ?_) ?_⟩
          · obtain ⟨s, hs, rfl⟩ := List.mem_map.1 ((sortTypes_perm _).mem_iff.1 hx)
            exact hpay s hs
          · rw [names_sorted]
            refine hF.variant _ ?_ (List.pairwise_map.2 (sortTypes_sorted _))
            refine ((sortTypes_perm _).map _).trans ?_
            rw [← scans_tags hl, List.map_map]
            exact .refl _
        · rcases List.mem_cons.1 he with rfl | he
          · exact ⟨ht, good_var hpos⟩
          · exact hfs e he

/-- What the solved equations say about the payloads of the arms. -/
theorem payloads_known {t : Ty} {args : Args} (hta : t = .node .variant args) (hnames : args.names.Nodup) (htc : ∀ w, t.contains w = false)
    {l : List (Scanned α)} (hnd : (l.map (·.tag)).Nodup) {extra eqs : List (Ty × Ty)} {d : Bool} (h : equations t extra l d = .ok eqs)
    {θ : Nat → Ty} (hθ : ∀ e ∈ eqs, e.1.subst θ = e.2.subst θ) :
    (∀ s ∈ l, ∃ T, payloadOf t s.tag = .ok T ∧ s.payload.subst θ = T) ∧ (d = false → ∀ n T, Part args n T → ∃ s ∈ l, s.tag = n) := by
  have hclosed : ∀ n T, Part args n T → ∀ w, T.contains w = false := by
    rw [hta] at htc
    have : ∀ {a : Args}, (∀ w, a.contains w = false) → ∀ n T, Part a n T → ∀ w, T.contains w = false := by
      intro a
      induction a using Args.rec (motive_1 := fun _ => True) with
      | never => trivial
      | var => trivial
      | node => trivial
      | nil => exact fun _ n T hp => hp.elim
      | cons m u rest _ ih =>
        intro hc n T hp w
        have hc' := fun w => Bool.or_eq_false_iff.1 (hc w)
        rcases hp with ⟨_, rfl⟩ | hp
        · exact (hc' w).1
        · exact ih (fun w => (hc' w).2) n T hp w
    exact this fun w => by have := htc w; rwa [Ty.contains] at this
  have hof : ∀ n T, Part args n T → payloadOf t n = .ok T := fun n T hp => by
    subst hta
    unfold payloadOf
    dsimp only
    rw [part_lookup hnames hp]
  unfold equations at h
  split at h
  · cases h
  · rename_i fields hfields
    split at h
    · rename_i hd
      split at h
      · cases h
      · rename_i hv hhv
        cases h
        refine ⟨fun s hs => ?_, fun hd' => by simp_all⟩
        obtain ⟨T, h1, h2⟩ := (hasVariants_ok hhv).1 s hs
        refine ⟨T, h1, ?_⟩
        have := hθ (T, s.payload) (by simp [h2])
        dsimp only at this
        rw [← this]
        obtain ⟨args', ha', hp⟩ := payloadOf_part h1
        rw [hta] at ha'
        cases ha'
        exact subst_closed (hclosed _ _ hp) θ
    · cases h
      have h0 := hθ (.var 0, .node .variant (named (sortTypes (l.map fun s => (s.tag, s.payload))))) (by simp)
      have h1 := hθ (t, .var 0) (by simp)
      dsimp only at h0 h1
      rw [h0, subst_closed htc, hta, Ty.subst, subst_named] at h1
      cases h1
      refine ⟨fun s hs => ⟨_, hof _ _ (part_named.2 ?_), rfl⟩, fun _ n T hp => ?_⟩
      · exact List.mem_map.2 ⟨(s.tag, s.payload), (sortTypes_perm _).mem_iff.2 (List.mem_map.2 ⟨s, hs, rfl⟩), rfl⟩
      · obtain ⟨y, hy, he⟩ := List.mem_map.1 (part_named.1 hp)
        obtain ⟨s, hs, rfl⟩ := List.mem_map.1 ((sortTypes_perm _).mem_iff.1 hy)
        cases he
        exact ⟨s, hs, rfl⟩

/-- C67: in an accepted match on variants, every value reaches the arm with its tag, whose variables are bound to the components of its
payload (all of them by position, or by name for records), or else the default; nothing panics.  Missing: as in C38, no record type may
have the fields of another one followed by more; payloads without values are left out. -/
theorem C67_chosen_partial (hS : Tidy S) (pick : Nat → Nat → Bool) (args : Args) (hnames : args.names.Nodup)
    (hsort : (Ty.node .variant args).Sorted S) (hnever : (Ty.node .variant args).NoNever) (hclosed : ∀ w, (Ty.node .variant args).contains w = false)
    (arms : List (VPat × α)) (hF : Fair S (arms.map (·.1))) (extra : List (Ty × Ty))
    (hextra : ∀ e ∈ extra, Good S (1 + (arms.map fun a => a.1.names.length + 1).sum) e.1 ∧
      Good S (1 + (arms.map fun a => a.1.names.length + 1).sum) e.2) (default : Option α)
    (alts : List (Alt α)) (db : List (Nat × Nat)) (d : α)
    (h : compileVariant pick (.node .variant args) extra arms default = some (.ok (alts, db, d)))
    (tag : Nat) (T : Ty) (hT : Part args tag T) (vs : Vals) (hv : HasPayload vs T) :
    ∃ env body, runVariant alts db d tag vs = some (env, body) ∧
      ((∃ x ∈ arms, x.1.tag = tag ∧ x.2 = body ∧ Binds x.1 T vs env) ∨
        (default = some body ∧ env = [] ∧ ∀ x ∈ arms, x.1.tag ≠ tag)) := by
  unfold compileVariant at h
  split at h
  · cases h
  · rename_i scanned n hscan
    obtain ⟨hl, hnd, hn, hkn⟩ := scanArms_ok hscan
    have hcount := scanArms_count hscan
    rw [← hcount] at hextra
    split at h
    · cases h
    · rename_i eqs heqs
      split at h
      · cases h
      · cases h
      · rename_i tab hsolve
        have hgood : Good S n (.node .variant args) := ⟨(fun w hw => by rw [hclosed w] at hw; cases hw), hsort, hnever⟩
        have hall := equations_good hgood hF hl (fun s hs => (hn s hs).2) (by omega) hextra heqs
        have hlen : ∀ w, w < n → w < (fresh n).length := fun w hw => by simpa [fresh] using hw
        obtain ⟨r, hr, hp⟩ := solve_spec (pick := pick) hS.named eqs (fresh n) Ty.var (tri_fresh n) (sorted_fresh n) (fun e he =>
          ⟨fun w hw => hlen w ((hall e he).1.1 w hw), fun w hw => hlen w ((hall e he).2.1 w hw), (hall e he).1.2.1, (hall e he).2.2.1⟩)
        rw [hsolve] at hr
        cases hr
        obtain ⟨p1, ⟨θ, p2⟩, p3, p4, p5, p6⟩ := hp
        have hnn : NoNeverTable tab := solve_noNever _ _ _ _ hsolve (noNever_fresh n) fun e he => ⟨(hall e he).1.2.2, (hall e he).2.2.2⟩
        have hθ : ∀ e ∈ eqs, e.1.subst θ = e.2.subst θ := fun e he =>
          (sameShape hS ((p5 θ p2.respects).2 e he) (Ty.sorted_subst _ (hall e he).1.2.1 fun v _ => p2.sorted p3 v)
            (Ty.sorted_subst _ (hall e he).2.2.1 fun v _ => p2.sorted p3 v)).eq (noNever_subst (tri_noNever p2 hnn) _ (hall e he).1.2.2)
            (noNever_subst (tri_noNever p2 hnn) _ (hall e he).2.2.2)
        obtain ⟨hpay, hcov⟩ := payloads_known rfl hnames hclosed hnd heqs hθ
        have hrest : ∀ s ∈ scanned, s.rest = true → s.names ≠ [] → ∃ args', payloadOf (.node .variant args) s.tag = .ok (.node .record args') ∧
            ∀ n ∈ s.names, some n ∈ args'.names := by
          unfold equations at heqs
          split at heqs
          · cases heqs
          · rename_i fields hfields
            exact (restEquations_ok hfields).1
        -- what an arm does with the payload
        have harm : ∀ s ∈ scanned, ∀ b, bindings (.node .variant args) s = some b → s.tag = tag →
            ∃ env, bindAll vs b = some env ∧ ∃ x ∈ arms, x.1.tag = tag ∧ x.2 = s.body ∧ Binds x.1 T vs env := by
          intro s hs b hb htag
          obtain ⟨x, hx, hxs⟩ := forall₂_mem hl s hs
          obtain ⟨T', h1, h2⟩ := hpay s hs
          have hTT : T' = T := by
            obtain ⟨args', ha', hp'⟩ := payloadOf_part h1
            cases ha'
            rw [htag] at hp'
            exact part_unique hnames hp' hT
          subst hTT
          obtain ⟨bs, env, i1, i2, i3⟩ := bindings_ok hxs h1 h2 (fun hr hne => by
            obtain ⟨args', j1, j2⟩ := hrest s hs hr hne
            rw [h1] at j1
            cases j1
            exact ⟨args', rfl, j2⟩) hv
          rw [hb] at i1
          cases i1
          exact ⟨env, i2, x, hx, by rw [← hxs.1, htag], hxs.2.2.1.symm, i3⟩
        split at h
        · cases h
        · rename_i alts' hm
          have hf := mapM_forall₂ hm
          have halt : ∀ a ∈ alts', ∃ s ∈ scanned, s.tag = a.tag ∧ s.body = a.body ∧ bindings (.node .variant args) s = some a.bindings := by
            intro a ha
            obtain ⟨s, hs, he⟩ := forall₂_mem hf a ha
            rw [Option.map_eq_some_iff] at he
            obtain ⟨b, hb, rfl⟩ := he
            exact ⟨s, hs, rfl, rfl, hb⟩
          have hback : ∀ s ∈ scanned, ∃ a ∈ alts', a.tag = s.tag := by
            intro s hs
            obtain ⟨a, ha, he⟩ := forall₂_mem hf.flip s hs
            rw [Option.map_eq_some_iff] at he
            obtain ⟨b, hb, rfl⟩ := he
            exact ⟨_, ha, rfl⟩
          have hrun : ∀ a ∈ alts', a.tag = tag → ∃ env, bindAll vs a.bindings = some env ∧
              ∃ x ∈ arms, x.1.tag = tag ∧ x.2 = a.body ∧ Binds x.1 T vs env := by
            intro a ha htag
            obtain ⟨s, hs, h1, h2, h3⟩ := halt a ha
            rw [← h2]
            exact harm s hs _ h3 (h1.trans htag)
          split at h
          · rename_i dd
            simp only [Option.some.injEq, Except.ok.injEq, Prod.mk.injEq] at h
            obtain ⟨rfl, rfl, rfl⟩ := h
            unfold runVariant
            cases hfind : alts'.find? (·.tag == tag) with
            | some a =>
              obtain ⟨env, i1, i2⟩ := hrun a (List.mem_of_find?_eq_some hfind) (by simpa using List.find?_some hfind)
              exact ⟨env, a.body, by dsimp only; rw [i1]; rfl, .inl i2⟩
            | none =>
              refine ⟨[], dd, rfl, .inr ⟨rfl, rfl, fun x hx htag => ?_⟩⟩
              obtain ⟨s, hs, hxs⟩ := forall₂_mem hl.flip x hx
              obtain ⟨a, ha, hat⟩ := hback s hs
              have := List.find?_eq_none.1 hfind a ha
              rw [hat, hxs.1, htag] at this
              simp at this
          · split at h
            · cases h
            · rename_i last hlast
              simp only [Option.some.injEq, Except.ok.injEq, Prod.mk.injEq] at h
              obtain ⟨rfl, rfl, rfl⟩ := h
              unfold runVariant
              cases hfind : alts'.dropLast.find? (·.tag == tag) with
              | some a =>
                obtain ⟨env, i1, i2⟩ := hrun a (List.mem_of_mem_dropLast (List.mem_of_find?_eq_some hfind)) (by simpa using List.find?_some hfind)
                exact ⟨env, a.body, by dsimp only; rw [i1]; rfl, .inl i2⟩
              | none =>
                have hlt : last.tag = tag := by
                  obtain ⟨s, hs, hst⟩ := hcov rfl tag T hT
                  obtain ⟨a, ha, hat⟩ := hback s hs
                  rw [List.getLast?_eq_some_iff] at hlast
                  obtain ⟨init, rfl⟩ := hlast
                  rcases List.mem_append.1 ha with ha | ha
                  · rw [List.dropLast_concat] at hfind
                    have := List.find?_eq_none.1 hfind a ha
                    rw [hat, hst] at this
                    simp at this
                  · simp only [List.mem_singleton] at ha
                    rw [← ha, hat, hst]
                obtain ⟨env, i1, i2⟩ := hrun last (List.mem_of_getLast? hlast) hlt
                exact ⟨env, last.body, by dsimp only; rw [i1]; rfl, .inl i2⟩

/-! ### Accepted matches -/

/-- A pattern suits the payload of its tag: it names nothing of an empty payload, every component of a tuple, every field of a record, or
at least one field of a record and ends with `..`. -/
inductive Suits : VPat → Ty → Prop
  | none (tag k) : Suits ⟨tag, k, []⟩ (.node (.native 2) .nil)
  | tuple (tag) {names : List Nat} {args : Args} : names ≠ [] → names.Nodup → args.names = List.replicate names.length none →
      Suits ⟨tag, true, names.map .named⟩ (.node .tuple args)
  | record (tag) {names sorted : List Nat} {args : Args} : names ≠ [] → sorted.Perm names → sorted.Pairwise (· < ·) →
      args.names = sorted.map some → Suits ⟨tag, false, names.map .named⟩ (.node .record args)
  | rest (tag) {names : List Nat} {args : Args} : names ≠ [] → names.Nodup → args.names.Nodup → (∀ n ∈ names, some n ∈ args.names) →
      Suits ⟨tag, false, names.map .named ++ [.rest]⟩ (.node .record args)

theorem scan_named {tuple : Bool} {tail : List PVar} {r : Bool} (htail : ∀ seen, scan tuple tail seen = .ok ([], r)) :
    ∀ {names seen : List Nat}, names.Nodup → (∀ n ∈ names, n ∉ seen) → scan tuple (names.map .named ++ tail) seen = .ok (names, r)
  | [], seen, _, _ => htail seen
  | n :: names, seen, hn, hs => by
    rw [List.nodup_cons] at hn
    rw [List.map_cons, List.cons_append, scan, if_neg (hs n (by simp)), scan_named htail hn.2 (fun m hm hm' => by
      rcases List.mem_cons.1 hm' with rfl | hm'
      · exact hn.1 hm
      · exact hs m (by simp [hm]) hm')]

theorem exists_unnamed : ∀ {args : Args} {k : Nat}, args.names = List.replicate k none → ∃ l : List Ty, args = unnamed l ∧ l.length = k
  | .nil, k, h => ⟨[], rfl, by
      rw [Args.names] at h
      have := congrArg List.length h
      simpa using this⟩
  | .cons m t rest, k, h => by
    cases k with
    | zero => simp [Args.names] at h
    | succ k =>
      rw [Args.names, List.replicate_succ, List.cons.injEq] at h
      obtain ⟨l, rfl, hl⟩ := exists_unnamed h.2
      exact ⟨t :: l, by rw [h.1]; rfl, by simp [hl]⟩

theorem exists_named : ∀ {args : Args} {names : List Nat}, args.names = names.map some → ∃ l : List (Nat × Ty), args = named l ∧ l.map (·.1) = names
  | .nil, names, h => ⟨[], rfl, by
      rw [Args.names] at h
      exact (List.map_eq_nil_iff.1 h.symm).symm⟩
  | .cons m t rest, names, h => by
    cases names with
    | nil => simp [Args.names] at h
    | cons n names =>
      rw [Args.names, List.map_cons, List.cons.injEq] at h
      obtain ⟨l, rfl, hl⟩ := exists_named h.2
      exact ⟨(n, t) :: l, by rw [h.1]; rfl, by simp [hl]⟩

theorem names_part {n : Nat} : ∀ {args : Args}, some n ∈ args.names → ∃ t, Part args n t
  | .nil, h => by simp [Args.names] at h
  | .cons m t rest, h => by
    rw [Args.names, List.mem_cons] at h
    by_cases hm : m = some n
    · exact ⟨t, .inl ⟨hm, rfl⟩⟩
    · obtain ⟨u, hu⟩ := names_part (h.resolve_left fun h => hm h.symm)
      exact ⟨u, .inr hu⟩

/-- The assignment of the variables of one arm. -/
def assign (k : Nat) (tys : List Ty) (T : Ty) (v : Nat) : Ty := (tys[v - k]?).getD T

theorem inner_assign (k : Nat) {names : List Nat} {tys : List Ty} (hl : tys.length = names.length) {T : Ty} {ρ : Nat → Ty}
    (hρ : ∀ v, k ≤ v → v ≤ k + names.length → ρ v = assign k tys T v) :
    (inner k names).map (fun x => (x.1, x.2.subst ρ)) = names.zip tys := by
  refine List.ext_getElem? fun i => ?_
  unfold inner
  rw [List.map_map, List.getElem?_map, List.getElem?_zipIdx]
  by_cases hi : i < names.length
  · have hi' : i < tys.length := by omega
    rw [List.getElem?_eq_getElem hi, (List.getElem?_zip_eq_some (z := (names[i], tys[i]))).2 ⟨List.getElem?_eq_getElem hi, List.getElem?_eq_getElem hi'⟩]
    simp only [Option.map_some, Function.comp, Ty.subst, Nat.zero_add]
    rw [hρ _ (by omega) (by omega), assign]
    have : k + i - k = i := by omega
    rw [this, List.getElem?_eq_getElem hi']
    rfl
  · rw [List.getElem?_eq_none_iff.2 (by omega), List.getElem?_eq_none_iff.2 (by simp; omega)]
    rfl

theorem projections_isSome {args : Args} {ρ : Nat → Ty} (hc : ∀ n t, Part args n t → ∀ w, t.contains w = false) :
    ∀ {vars : List (Nat × Ty)}, (∀ x ∈ vars, lookup x.1 args = some (x.2.subst ρ)) →
    ∃ l, projections args vars = .ok l ∧ ∀ e ∈ l, e.1.subst ρ = e.2.subst ρ
  | [], _ => ⟨[], rfl, by simp⟩
  | (n, v) :: vars, h => by
    obtain ⟨l, h1, h2⟩ := projections_isSome hc (vars := vars) fun x hx => h x (by simp [hx])
    have h0 := h (n, v) (by simp)
    dsimp only at h0
    refine ⟨(v.subst ρ, v) :: l, by rw [projections, h0, h1], fun e he => ?_⟩
    rcases List.mem_cons.1 he with rfl | he
    · exact subst_closed (hc _ _ (lookup_part h0)) ρ
    · exact h2 e he

theorem mapM_isSome {β γ} {f : β → Option γ} : ∀ {l : List β}, (∀ x ∈ l, (f x).isSome) → (l.mapM f).isSome
  | [], _ => rfl
  | x :: l, h => by
    obtain ⟨y, hy⟩ := Option.isSome_iff_exists.1 (h x (by simp))
    obtain ⟨ys, hys⟩ := Option.isSome_iff_exists.1 (mapM_isSome (l := l) fun z hz => h z (by simp [hz]))
    rw [List.mapM_cons, hy, hys]
    rfl

theorem position_isSome {n : Nat} : ∀ {args : Args}, some n ∈ args.names → (position n args).isSome
  | .nil, h => by simp [Args.names] at h
  | .cons m t rest, h => by
    rw [position]
    split
    · rfl
    · rename_i hm
      rw [Args.names, List.mem_cons] at h
      have := position_isSome (h.resolve_left fun h => hm h.symm)
      simpa using this

theorem zip_self {β} : ∀ l : List β, l.zip l = l.map fun x => (x, x)
  | [] => rfl
  | x :: l => by rw [List.zip_cons_cons, zip_self l]; rfl

/-- The types of the variables of one arm. -/
theorem suits_solution {p : VPat} {T : Ty} (h : Suits p T) (hTc : ∀ w, T.contains w = false) (k : Nat) :
    ∃ names rest tys, scan p.tuple p.vars [] = .ok (names, rest) ∧ ∀ ρ : Nat → Ty,
      (∀ v, k ≤ v → v ≤ k + names.length → ρ v = assign k tys T v) → (payload k p.tuple names rest).subst ρ = T ∧
      (rest = true → names ≠ [] → ∃ args l, T = .node .record args ∧ projections args (inner k names) = .ok l ∧ ∀ e ∈ l, e.1.subst ρ = e.2.subst ρ) ∧
      ∀ (t : Ty) (a : α), payloadOf t p.tag = .ok T → (bindings t ⟨p.tag, p.tuple, names, rest, k, a⟩).isSome := by
  cases h with
  | none tag b =>
    refine ⟨[], false, [], rfl, fun ρ hρ => ⟨by simp [payload, unitTy, Ty.subst, Args.subst], by simp, fun t a ht => ?_⟩⟩
    cases b <;> simp [bindings]
  | @tuple tag names args hne hn ha =>
    obtain ⟨tys, rfl, hl⟩ := exists_unnamed ha
    have hscan : scan true (names.map .named) [] = .ok (names, false) := by
      have := scan_named (tuple := true) (tail := []) (r := false) (fun _ => rfl) hn (seen := []) (by simp)
      rwa [List.append_nil] at this
    refine ⟨names, false, tys, hscan, fun ρ hρ => ⟨?_, by simp, fun t a ht => by simp [bindings]⟩⟩
    rw [payload, if_neg hne, if_pos rfl, Ty.subst, subst_unnamed, List.map_map]
    have h1 := congrArg (List.map Prod.snd) (inner_assign k hl hρ)
    rw [List.map_map, List.map_snd_zip (by omega)] at h1
    have h2 : ((fun x => x.subst ρ) ∘ fun x : Nat × Ty => x.2) = Prod.snd ∘ fun x : Nat × Ty => (x.1, x.2.subst ρ) := rfl
    rw [h2, h1]
  | @record tag names sorted args hne hperm hlt ha =>
    obtain ⟨A, rfl, rfl⟩ := exists_named ha
    have hndA : (A.map (·.1)).Nodup := hlt.imp fun h => Nat.ne_of_lt h
    have hnd : names.Nodup := hperm.nodup_iff.1 hndA
    have hscan : scan false (names.map .named) [] = .ok (names, false) := by
      have := scan_named (tuple := false) (tail := []) (r := false) (fun _ => rfl) hnd (seen := []) (by simp)
      rwa [List.append_nil] at this
    refine ⟨names, false, names.map fun n => (lookup n (named A)).getD .never, hscan, fun ρ hρ => ⟨?_, by simp, fun t a ht => ?_⟩⟩
    · rw [payload, if_neg hne, if_neg (by simp), if_neg (by simp), Ty.subst, subst_named]
      have h1 := inner_assign k (by simp) hρ
      congr 2
      have hperm' : ((sortTypes (inner k names)).map fun x => (x.1, x.2.subst ρ)).Perm A := by
        refine ((sortTypes_perm _).map _).trans ?_
        rw [h1, List.zip_map_right]
        have h2 : (names.zip names).map (Prod.map id fun n => (lookup n (named A)).getD .never) =
            names.map fun n => (n, (lookup n (named A)).getD .never) := by
          rw [zip_self, List.map_map]
          rfl
        rw [h2]
        refine (hperm.symm.map _).trans ?_
        rw [List.map_map]
        have h3 : ∀ x ∈ A, ((fun n => (n, (lookup n (named A)).getD .never)) ∘ fun x : Nat × Ty => x.1) x = id x := by
          intro x hx
          have : lookup x.1 (named A) = some x.2 := part_lookup (by
            rw [names_named]
            have h4 : (A.map fun x : Nat × Ty => some x.1) = (A.map (·.1)).map some := by rw [List.map_map]; rfl
            rw [h4]
            exact hndA.map (Option.some_injective _)) (part_named.2 hx)
          simp [this]
        rw [List.map_congr_left h3, List.map_id]
      refine hperm'.eq_of_pairwise (le := fun a b => a.1 ≤ b.1) ?_ ?_ ?_
      · intro a b ha hb h2 h3
        exact List.inj_on_of_nodup_map hndA (hperm'.mem_iff.1 ha) hb (Nat.le_antisymm h2 h3)
      · exact List.pairwise_map.2 (sortTypes_sorted _)
      · exact (List.pairwise_map.1 hlt).imp fun h => Nat.le_of_lt h
    · simp only [bindings, Bool.false_eq_true, if_false]
      refine mapM_isSome fun n hn => ?_
      have : some n ∈ (named (sortTypes (inner k names))).names := by
        rw [names_sorted]
        refine List.mem_map.2 ⟨n, ?_, rfl⟩
        rw [((sortTypes_perm _).map _).mem_iff, inner_names]
        exact hn
      simpa using position_isSome this
  | @rest tag names args hne hnd hnda hmem =>
    have hscan : scan false (names.map .named ++ [.rest]) [] = .ok (names, true) :=
      scan_named (tuple := false) (tail := [.rest]) (r := true) (fun _ => by simp [scan]) hnd (by simp)
    refine ⟨names, true, names.map fun n => (lookup n args).getD .never, hscan, fun ρ hρ => ⟨?_, fun _ _ => ?_, fun t a ht => ?_⟩⟩
    · rw [payload, if_neg hne, if_neg (by simp), if_pos rfl, Ty.subst, hρ _ (by omega) (by omega), assign]
      rw [List.getElem?_eq_none_iff.2 (by simp)]
      rfl
    · have hc : ∀ n t, Part args n t → ∀ w, t.contains w = false := by
        have : ∀ {a : Args}, (∀ w, a.contains w = false) → ∀ n T, Part a n T → ∀ w, T.contains w = false := by
          intro a
          induction a using Args.rec (motive_1 := fun _ => True) with
          | never => trivial
          | var => trivial
          | node => trivial
          | nil => exact fun _ n T hp => hp.elim
          | cons m u rest _ ih =>
            intro hc n T hp w
            have hc' := fun w => Bool.or_eq_false_iff.1 (hc w)
            rcases hp with ⟨_, rfl⟩ | hp
            · exact (hc' w).1
            · exact ih (fun w => (hc' w).2) n T hp w
        exact this fun w => by have := hTc w; rwa [Ty.contains] at this
      obtain ⟨l, h1, h2⟩ := projections_isSome hc (vars := inner k names) (ρ := ρ) (fun x hx => by
        have h1 := inner_assign k (by simp) hρ
        have hx' : (x.1, x.2.subst ρ) ∈ (inner k names).map fun x => (x.1, x.2.subst ρ) := List.mem_map.2 ⟨x, hx, rfl⟩
        rw [h1, List.zip_map_right, zip_self] at hx'
        simp only [List.map_map, List.mem_map, Function.comp, Prod.map, Prod.mk.injEq, id] at hx'
        obtain ⟨n, hn, rfl, h3⟩ := hx'
        obtain ⟨u, hu⟩ := names_part (hmem _ hn)
        rw [part_lookup hnda hu] at h3 ⊢
        rw [← h3]
        rfl)
      exact ⟨args, l, rfl, h1, h2⟩
    · simp only [bindings, Bool.false_eq_true, if_false, if_true]
      dsimp only at ht
      rw [ht]
      refine mapM_isSome fun n hn => ?_
      simpa using position_isSome (hmem n hn)

theorem arms_solution {t : Ty} : ∀ (arms : List (VPat × α)) (seen : List Nat) (k : Nat),
    (∀ x ∈ arms, x.1.tag ∉ seen ∧ ∃ T, payloadOf t x.1.tag = .ok T ∧ Suits x.1 T ∧ ∀ w, T.contains w = false) →
    (arms.map fun x => x.1.tag).Nodup →
    ∃ (l : List (Scanned α)) (n : Nat) (ρ : Nat → Ty), scanArms k arms seen = .ok (l, n) ∧ k ≤ n ∧ ∀ ρ' : Nat → Ty, (∀ v, k ≤ v → v < n → ρ' v = ρ v) →
      (∀ s ∈ l, payloadOf t s.tag = .ok (s.payload.subst ρ') ∧ (∀ w, (s.payload.subst ρ').contains w = false) ∧ (bindings t s).isSome) ∧
      ∃ fields, restEquations t l = .ok fields ∧ ∀ e ∈ fields, e.1.subst ρ' = e.2.subst ρ'
  | [], seen, k, _, _ => ⟨[], k, Ty.var, rfl, le_rfl, fun ρ' _ => ⟨by simp, [], rfl, by simp⟩⟩
  | (p, a) :: arms, seen, k, h, hnd => by
    obtain ⟨hseen, T, hT, hsuits, hTc⟩ := h (p, a) (by simp)
    obtain ⟨names, rest, tys, hscan, hsol⟩ := suits_solution (α := α) hsuits hTc k
    rw [List.map_cons, List.nodup_cons] at hnd
    obtain ⟨l, n, ρ, hl, hkn, hρ⟩ := arms_solution arms (p.tag :: seen) (k + names.length + 1) (fun x hx => by
      obtain ⟨h1, h2⟩ := h x (by simp [hx])
      refine ⟨fun hm => ?_, h2⟩
      rcases List.mem_cons.1 hm with he | hm
      · exact hnd.1 (List.mem_map.2 ⟨x, hx, he⟩)
      · exact h1 hm) hnd.2
    refine ⟨⟨p.tag, p.tuple, names, rest, k, a⟩ :: l, n, fun v => if v ≤ k + names.length then assign k tys T v else ρ v, ?_, by omega, ?_⟩
    · dsimp only at hseen
      rw [scanArms, if_neg hseen, hscan]
      dsimp only
      rw [hl]
    · intro ρ' hρ'
      obtain ⟨s1, s2, s3⟩ := hsol ρ' (fun v h1 h2 => by rw [hρ' v h1 (by omega)]; dsimp only; rw [if_pos h2])
      obtain ⟨t1, fields, t2, t3⟩ := hρ ρ' (fun v h1 h2 => by rw [hρ' v (by omega) h2]; dsimp only; rw [if_neg (by omega)])
      dsimp only at hT
      have hfirst : (⟨p.tag, p.tuple, names, rest, k, a⟩ : Scanned α).payload.subst ρ' = T := s1
      refine ⟨fun s hs => ?_, ?_⟩
      · rcases List.mem_cons.1 hs with rfl | hs
        · rw [hfirst]
          exact ⟨hT, hTc, s3 t a hT⟩
        · exact t1 s hs
      · rw [restEquations, t2]
        dsimp only
        by_cases hr : rest = true ∧ names ≠ []
        · obtain ⟨args, l', rfl, hp, hp'⟩ := s2 hr.1 hr.2
          rw [if_pos hr, hT]
          dsimp only
          rw [hp]
          refine ⟨_, rfl, fun e he => ?_⟩
          rcases List.mem_append.1 he with he | he
          · exact hp' e he
          · exact t3 e he
        · rw [if_neg hr]
          exact ⟨fields, rfl, t3⟩

theorem hasVariants_isSome {t : Ty} {ρ : Nat → Ty} : ∀ {l : List (Scanned α)}, (∀ s ∈ l, payloadOf t s.tag = .ok (s.payload.subst ρ) ∧
    ∀ w, (s.payload.subst ρ).contains w = false) → ∃ eqs, hasVariants t l = .ok eqs ∧ ∀ e ∈ eqs, e.1.subst ρ = e.2.subst ρ
  | [], _ => ⟨[], rfl, by simp⟩
  | s :: l, h => by
    obtain ⟨eqs, h1, h2⟩ := hasVariants_isSome (l := l) fun s hs => h s (by simp [hs])
    obtain ⟨h3, h4⟩ := h s (by simp)
    refine ⟨(s.payload.subst ρ, s.payload) :: eqs, by rw [hasVariants, h3]; dsimp only; rw [h1], fun e he => ?_⟩
    rcases List.mem_cons.1 he with rfl | he
    · exact subst_closed h4 ρ
    · exact h2 e he

/-- C67: a match on variants is accepted if every arm is for a tag of the type, with a pattern which suits its payload, no tag
occurs twice, and there is a default or every tag has an arm. -/
theorem C67_accepts (hS : FixedArity S) (pick : Nat → Nat → Bool) (args : Args) (tags : List Nat) (htags : args.names = tags.map some)
    (hlt : tags.Pairwise (· < ·)) (hsort : (Ty.node .variant args).Sorted S) (hnever : (Ty.node .variant args).NoNever)
    (hclosed : ∀ w, (Ty.node .variant args).contains w = false) (arms : List (VPat × α)) (hne : arms ≠ []) (hF : Fair S (arms.map (·.1)))
    (harms : ∀ x ∈ arms, ∃ T, Part args x.1.tag T ∧ Suits x.1 T) (hnd : (arms.map fun x => x.1.tag).Nodup) (default : Option α)
    (hall : default = none → ∀ n ∈ tags, ∃ x ∈ arms, x.1.tag = n) :
    ∃ alts db d, compileVariant pick (.node .variant args) [] arms default = some (.ok (alts, db, d)) := by
  obtain ⟨A, rfl, rfl⟩ := exists_named htags
  have hndA : (A.map (·.1)).Nodup := hlt.imp fun h => Nat.ne_of_lt h
  have hnames : (named A).names.Nodup := by
    rw [htags]
    exact hndA.map (Option.some_injective _)
  have hclosedA : ∀ n T, Part (named A) n T → ∀ w, T.contains w = false := by
    intro n T hp w
    have h1 := hclosed w
    rw [Ty.contains] at h1
    have : ∀ {l : List (Nat × Ty)}, (named l).contains w = false → (n, T) ∈ l → T.contains w = false := by
      intro l
      induction l with
      | nil => intro _ h; simp at h
      | cons x l ih =>
        intro hc hm
        rw [named, Args.contains, Bool.or_eq_false_iff] at hc
        rcases List.mem_cons.1 hm with rfl | hm
        · exact hc.1
        · exact ih hc.2 hm
    exact this h1 (part_named.1 hp)
  have hof : ∀ n T, Part (named A) n T → payloadOf (.node .variant (named A)) n = .ok T := fun n T hp => by
    unfold payloadOf
    dsimp only
    rw [part_lookup hnames hp]
  obtain ⟨l, n, ρ, hscan, hkn, hρ⟩ := arms_solution (t := .node .variant (named A)) arms [] 1 (fun x hx => by
    obtain ⟨T, h1, h2⟩ := harms x hx
    exact ⟨by simp, T, hof _ _ h1, h2, hclosedA _ _ h1⟩) hnd
  obtain ⟨hl, hnd', hn, -⟩ := scanArms_ok hscan
  have hgood : Good S n (.node .variant (named A)) := ⟨(fun w hw => by rw [hclosed w] at hw; cases hw), hsort, hnever⟩
  have hρ' := hρ (fun v => if v = 0 then .node .variant (named A) else ρ v) (fun v h1 _ => by rw [if_neg (by omega)])
  generalize hσ : (fun v => if v = 0 then Ty.node .variant (named A) else ρ v) = σ at hρ'
  obtain ⟨hpay, fields, hfields, hfields'⟩ := hρ'
  have hσ0 : σ 0 = .node .variant (named A) := by rw [← hσ]; rfl
  have heqs : ∃ eqs, equations (.node .variant (named A)) [] l default.isSome = .ok eqs ∧ ∀ e ∈ eqs, e.1.subst σ = e.2.subst σ := by
    unfold equations
    rw [hfields]
    dsimp only
    cases default with
    | some d =>
      obtain ⟨eqs, h1, h2⟩ := hasVariants_isSome (ρ := σ) fun s hs => ⟨(hpay s hs).1, (hpay s hs).2.1⟩
      rw [if_pos (by simp), h1]
      refine ⟨_, rfl, fun e he => ?_⟩
      rw [List.nil_append] at he
      rcases List.mem_cons.1 he with rfl | he
      · dsimp only
        rw [subst_closed hclosed, Ty.subst, hσ0]
      · rcases List.mem_append.1 he with he | he
        · exact h2 e he
        · exact hfields' e he
    | none =>
      rw [if_neg (by simp)]
      refine ⟨_, rfl, fun e he => ?_⟩
      rw [List.nil_append] at he
      rcases List.mem_cons.1 he with rfl | he
      · dsimp only
        rw [Ty.subst, hσ0, Ty.subst, subst_named]
        congr 2
        have hmem : ∀ x ∈ (sortTypes (l.map fun s => (s.tag, s.payload))).map (fun x => (x.1, x.2.subst σ)), x ∈ A := by
          intro x hx
          obtain ⟨y, hy, rfl⟩ := List.mem_map.1 hx
          obtain ⟨s, hs, rfl⟩ := List.mem_map.1 ((sortTypes_perm _).mem_iff.1 hy)
          obtain ⟨args', h1, h2⟩ := payloadOf_part (hpay s hs).1
          cases h1
          exact part_named.1 h2
        have hnd2 : (((sortTypes (l.map fun s => (s.tag, s.payload))).map fun x => (x.1, x.2.subst σ)).map (·.1)).Nodup := by
          rw [List.map_map]
          refine (((sortTypes_perm _).map _).nodup_iff).2 ?_
          rw [List.map_map]
          exact hnd'
        have hperm : A.Perm ((sortTypes (l.map fun s => (s.tag, s.payload))).map fun x => (x.1, x.2.subst σ)) := by
          rw [List.perm_ext_iff_of_nodup hndA.of_map hnd2.of_map]
          refine fun x => ⟨fun hx => ?_, hmem x⟩
          obtain ⟨y, hy, hyt⟩ := hall rfl x.1 (List.mem_map.2 ⟨x, hx, rfl⟩)
          obtain ⟨s, hs, hys⟩ := forall₂_mem hl.flip y hy
          have h1 : (s.tag, s.payload.subst σ) ∈ (sortTypes (l.map fun s => (s.tag, s.payload))).map fun x => (x.1, x.2.subst σ) :=
            List.mem_map.2 ⟨(s.tag, s.payload), (sortTypes_perm _).mem_iff.2 (List.mem_map.2 ⟨s, hs, rfl⟩), rfl⟩
          have h2 := List.inj_on_of_nodup_map hndA (hmem _ h1) hx (by dsimp only; rw [hys.1, hyt])
          rw [← h2]
          exact h1
        refine hperm.eq_of_pairwise (le := fun a b => a.1 ≤ b.1) ?_ ?_ ?_
        · intro a b ha hb h2 h3
          exact List.inj_on_of_nodup_map hndA ha (hmem b hb) (Nat.le_antisymm h2 h3)
        · exact (List.pairwise_map.1 hlt).imp fun h => Nat.le_of_lt h
        · exact List.pairwise_map.2 (sortTypes_sorted _)
      · rcases List.mem_cons.1 he with rfl | he
        · dsimp only
          rw [subst_closed hclosed, Ty.subst, hσ0]
        · exact hfields' e he
  obtain ⟨eqs, h1, h2⟩ := heqs
  have hgoods := equations_good hgood hF hl (fun s hs => (hn s hs).2) (by omega) (by simp) h1
  have hlen : ∀ w, w < n → w < (fresh n).length := fun w hw => by simpa [fresh] using hw
  obtain ⟨r, hr, hp⟩ := solve_spec (pick := pick) hS eqs (fresh n) Ty.var (tri_fresh n) (sorted_fresh n) (fun e he =>
    ⟨fun w hw => hlen w ((hgoods e he).1.1 w hw), fun w hw => hlen w ((hgoods e he).2.1 w hw), (hgoods e he).1.2.1, (hgoods e he).2.2.1⟩)
  have hsolve : ∃ tab, Unify.solve pick (fresh n) eqs = some (.ok tab) := by
    cases r with
    | ok tab => exact ⟨tab, hr⟩
    | error e =>
      refine absurd h2 (hp σ fun v u hu => ?_)
      unfold fresh at hu
      have := List.mem_of_getElem? hu
      simp at this
  obtain ⟨tab, hsolve⟩ := hsolve
  obtain ⟨alts, halts⟩ := Option.isSome_iff_exists.1 (mapM_isSome (f := fun s => (bindings (.node .variant (named A)) s).map fun b => Alt.mk s.tag b s.body)
    (l := l) fun s hs => by simpa using (hpay s hs).2.2)
  unfold compileVariant
  rw [hscan]
  dsimp only
  rw [h1]
  dsimp only
  rw [hsolve]
  dsimp only
  rw [halts]
  cases default with
  | some d => exact ⟨_, _, _, rfl⟩
  | none =>
    dsimp only
    cases hlast : alts.getLast? with
    | some last => exact ⟨_, _, _, rfl⟩
    | none =>
      rw [List.getLast?_eq_none_iff] at hlast
      subst hlast
      have := (mapM_forall₂ halts).length_eq
      have := hl.length_eq
      simp_all

/-- C67: a match with two arms for one tag is refused. -/
theorem C67_once (pick : Nat → Nat → Bool) (t : Ty) (extra : List (Ty × Ty)) (arms : List (VPat × α)) (default : Option α)
    (h : ¬ (arms.map fun x => x.1.tag).Nodup) : ∃ e, compileVariant pick t extra arms default = some (.error e) := by
  unfold compileVariant
  split
  · exact ⟨_, rfl⟩
  · rename_i l n hscan
    obtain ⟨hl, hnd, -⟩ := scanArms_ok hscan
    rw [scans_tags hl, List.map_map] at hnd
    exact absurd hnd h

/-! ### Counterexamples -/

/-- The type `A {a: bool}`. -/
def oneField : Ty := .node .variant (.cons (some 7) (.node .record (.cons (some 0) boolTy .nil)) .nil)

/-- C67 fails: the book says that `..` ignores remaining fields, but `match v { A {..} => 1 }` is refused, with and without a default. -/
theorem C67_rest_only_violated (pick : Nat → Nat → Bool) (default : Option Nat) :
    compileVariant pick oneField [] [(⟨7, false, [.rest]⟩, 1)] default = some (.error .mismatch) := by
  cases default <;>
    simp [compileVariant, scanArms, scan, equations, restEquations, hasVariants, payloadOf, lookup, oneField, Scanned.payload, payload, sortTypes, insertType,
      named, boolTy, unitTy, Unify.solve, unify, Unify.normalize, normalizeArgs, fresh, unifyArgs, checksLength, assertsLength, checksNames, swaps,
      Args.length, unifyVariable, Unify.bind, Ty.contains, Args.contains, List.replicate]

/-- C67 fails: `match v { A {a, b} => b + 1 }` is accepted for a value of `A {a: bool}`, and its variable `b` is read from a component which
does not exist. -/
theorem C67_fields_violated (pick : Nat → Nat → Bool) : ∃ alts db d,
    compileVariant pick oneField [(.var 2, intTy)] [(⟨7, false, [.named 0, .named 1]⟩, 1)] none = some (.ok (alts, db, d)) ∧
      HasPayload (.cons (.bool true) .nil) (.node .record (.cons (some 0) boolTy .nil)) ∧
      runVariant alts db d 7 (.cons (.bool true) .nil) = none := by
  refine ⟨[], [(0, 0), (1, 1)], 1, ?_, .record (.cons (.bool _) .nil), by decide⟩
  simp [compileVariant, scanArms, scan, equations, restEquations, oneField, Scanned.payload, payload, sortTypes, insertType, inner, bindings, position,
      named, boolTy, intTy, Unify.solve, unify, Unify.normalize, normalizeArgs, fresh, unifyArgs, checksLength, assertsLength, checksNames, swaps,
      Args.length, unifyVariable, Unify.bind, Ty.contains, Args.contains, List.replicate]

/-! ### Examples -/

/-- The type `Nothing | Pair {b: bool, c: ()} | Two (bool, bool)`, with the tags `4`, `5` and `6`. -/
def three : Args := named [(4, unitTy), (5, mixed), (6, .node .tuple (unnamed [boolTy, boolTy]))]

/-- `match … { Pair {c, ..} => 1, Nothing => 2, Two(x, y) => 3 }` -/
def threeArms : List (VPat × Nat) :=
  [(⟨5, false, [.named 2, .rest]⟩, 1), (⟨4, true, []⟩, 2), (⟨6, true, [.named 20, .named 21]⟩, 3)]

/-- Records have the two fields `1` and `2`. -/
def threeSorts : Head → List (Option Nat) → Prop
  | .native _, ns => ns = []
  | .named k, ns => ns = List.replicate k none
  | .record, ns => ns = [some 1, some 2]
  | .variant, _ => True
  | .tuple, ns => ∀ n ∈ ns, n = none
  | .function, ns => ∀ n ∈ ns, n = none

theorem three_tidy : Tidy threeSorts where
  named := by intro k ns ms h h'; simp only [threeSorts] at h h'; rw [h, h']
  native := by intro k ns ms h h'; simp only [threeSorts] at h h'; rw [h, h']
  positional := by
    intro h ns hc hs n hn
    cases h with
    | native k => simp only [threeSorts] at hs; subst hs; cases hn
    | named k => simp only [threeSorts] at hs; subst hs; exact List.eq_of_mem_replicate hn
    | tuple => exact hs n hn
    | function => exact hs n hn
    | variant => cases hc
    | record => cases hc
  records := by
    intro ns ms h h' hp
    simp only [threeSorts] at h h'
    rw [h, h']

theorem three_fair : Fair threeSorts (threeArms.map (·.1)) where
  unit := rfl
  tuple := by
    intro k n hn
    exact List.eq_of_mem_replicate hn
  record := by
    intro p hp h1 h2 h3
    simp only [threeArms, List.map_cons, List.map_nil, List.mem_cons, List.not_mem_nil, or_false] at hp
    rcases hp with rfl | rfl | rfl
    · simp at h2
    · simp at h1
    · simp at h1
  variant := fun _ _ _ => trivial

example (pick : Nat → Nat → Bool) (b : Bool) : ∃ alts db d, compileVariant pick (.node .variant three) [] threeArms none = some (.ok (alts, db, d)) ∧
    ∃ env body, runVariant alts db d 5 (.cons (.bool b) (.cons .unit .nil)) = some (env, body) ∧
      ((∃ x ∈ threeArms, x.1.tag = 5 ∧ x.2 = body ∧ Binds x.1 mixed (.cons (.bool b) (.cons .unit .nil)) env) ∨
        ((none : Option Nat) = some body ∧ env = [] ∧ ∀ x ∈ threeArms, x.1.tag ≠ 5)) := by
  have hs : (Ty.node .variant three).Sorted threeSorts := by
    simp [three, named, unnamed, mixed, boolTy, unitTy, Ty.Sorted, Args.Sorted, Args.names, threeSorts]
  have hn : (Ty.node .variant three).NoNever := by
    simp [three, named, unnamed, mixed, boolTy, unitTy, Ty.NoNever, Args.NoNever]
  have hc : ∀ w, (Ty.node .variant three).contains w = false := by
    simp [three, named, unnamed, mixed, boolTy, unitTy, Ty.contains, Args.contains]
  obtain ⟨alts, db, d, h⟩ := C67_accepts three_tidy.named pick three [4, 5, 6] rfl (by decide) hs hn hc threeArms (by simp [threeArms]) three_fair
    (by
      intro x hx
      simp only [threeArms, List.mem_cons, List.not_mem_nil, or_false] at hx
      rcases hx with rfl | rfl | rfl
      · exact ⟨mixed, part_named.2 (by simp), .rest 5 (names := [2]) (by simp) (by simp) (by decide) (by decide)⟩
      · exact ⟨unitTy, part_named.2 (by simp), .none _ _⟩
      · exact ⟨_, part_named.2 (by simp; rfl), .tuple 6 (names := [20, 21]) (by simp) (by simp) rfl⟩)
    (by decide) none (by
      intro _ n hn
      simp only [List.mem_cons, List.not_mem_nil, or_false] at hn
      rcases hn with rfl | rfl | rfl <;> simp [threeArms])
  exact ⟨alts, db, d, h, C67_chosen_partial three_tidy pick three (by decide) hs hn hc threeArms three_fair [] (by simp) none alts db d h 5 mixed
    (part_named.2 (by simp)) _ (.record (.cons (.bool b) (.cons .unit .nil)))⟩

end Ferlium.Match
