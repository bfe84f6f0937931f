import Verif.Model.Match
import Verif.Props.Coherence
import Mathlib.Data.List.Sort
import Mathlib.Data.List.Forall2

/-!
C66: matches on literals.
-/
namespace Ferlium.Match
open Ferlium.Unify Ferlium.Coherence

mutual

/-- A value has a type.  The components of a record are in the order of the fields of its type. -/
inductive HasTy : Val → Ty → Prop
  | unit : HasTy .unit (.node (.native 2) .nil)
  | bool (b) : HasTy (.bool b) (.node (.native 1) .nil)
  | int (n) : HasTy (.int n) (.node (.native 0) .nil)
  | str (s) : HasTy (.str s) (.node (.native 3) .nil)
  | tuple {vs args} : HasTys vs args → HasTy (.tuple vs) (.node .tuple args)
  | record {vs args} : HasTys vs args → HasTy (.tuple vs) (.node .record args)
  | native (n k args) : 3 < k ∨ args ≠ .nil → HasTy (.other n) (.node (.native k) args)
  | variant (n args) : HasTy (.other n) (.node .variant args)
  | function (n args) : HasTy (.other n) (.node .function args)
  | named (n d args) : HasTy (.other n) (.node (.named d) args)

/-- The same for components. -/
inductive HasTys : Vals → Args → Prop
  | nil : HasTys .nil .nil
  | cons {n v t vs args} : HasTy v t → HasTys vs args → HasTys (.cons v vs) (.cons n t args)

end

/-- The field of a record with a name, and its type. -/
def field : Args → Vals → Nat → Option (Ty × Val)
  | .cons m t args, .cons v vs, n => if m = some n then some (t, v) else field args vs n
  | _, _, _ => none

/-- The names of the fields of a pattern. -/
def Fields.names : Fields → List Nat
  | .nil => []
  | .cons n _ fs => n :: fs.names

mutual

/-- A value of a type is what a pattern says: records are compared by the names of their fields. -/
def Pat.Fits : Pat → Ty → Val → Prop
  | .unit, _, v => v = .unit
  | .bool b, _, v => v = .bool b
  | .int n, _, v => v = .int n
  | .str s, _, v => v = .str s
  | .tuple ps, .node .tuple args, .tuple vs => ps.Fits args vs
  | .record fs, .node .record args, .tuple vs => (∀ n ∈ args.names, ∃ m ∈ fs.names, n = some m) ∧ fs.Fits args vs
  | _, _, _ => False

/-- The same for tuples. -/
def Pats.Fits : Pats → Args → Vals → Prop
  | .nil, .nil, .nil => True
  | .cons p ps, .cons _ t args, .cons v vs => p.Fits t v ∧ ps.Fits args vs
  | _, _, _ => False

/-- The same for fields. -/
def Fields.Fits : Fields → Args → Vals → Prop
  | .nil, _, _ => True
  | .cons n p fs, args, vs => (∃ t v, field args vs n = some (t, v) ∧ p.Fits t v) ∧ fs.Fits args vs

end

/-- The result of a match: that of the first arm which fits, and that of the default if no arm fits. -/
inductive Chosen {α} (t : Ty) (v : Val) : List (Pat × α) → Option α → α → Prop
  | here {p a rest d} : p.Fits t v → Chosen t v ((p, a) :: rest) d a
  | next {p a rest d b} : ¬ p.Fits t v → Chosen t v rest d b → Chosen t v ((p, a) :: rest) d b
  | default {a} : Chosen t v [] (some a) a

/-! ### Literals -/

mutual

/-- A value which is a literal. -/
def Val.Literal : Val → Prop
  | .other _ => False
  | .tuple vs => vs.Literal
  | _ => True

/-- The same for components. -/
def Vals.Literal : Vals → Prop
  | .nil => True
  | .cons v vs => v.Literal ∧ vs.Literal

end

mutual

theorem matches_eq : ∀ {v : Val} {t : Ty}, HasTy v t → ∀ {l : Val}, HasTy l t → l.Literal → l.matches v = some (decide (l = v))
  | _, _, .unit, l, hl, _ => by cases hl <;> simp_all [Val.matches]
  | _, _, .bool _, l, hl, h => by
    cases hl with
    | bool b => simp [Val.matches]; rfl
    | native => simp [Val.Literal] at h
  | _, _, .int _, l, hl, h => by
    cases hl with
    | int b => simp [Val.matches]; rfl
    | native => simp [Val.Literal] at h
  | _, _, .str _, l, hl, h => by
    cases hl with
    | str b => simp [Val.matches]; rfl
    | native => simp [Val.Literal] at h
  | _, _, .tuple hv, l, hl, h => by
    cases hl with
    | tuple hl =>
      rw [Val.Literal] at h
      rw [Val.matches, matches_vals hv hl h]
      simp
  | _, _, .record hv, l, hl, h => by
    cases hl with
    | record hl =>
      rw [Val.Literal] at h
      rw [Val.matches, matches_vals hv hl h]
      simp
  | _, _, .native n k args hk, l, hl, h => by
    cases hl <;> simp_all [Val.Literal]
  | _, _, .variant n args, l, hl, h => by cases hl; simp [Val.Literal] at h
  | _, _, .function n args, l, hl, h => by cases hl; simp [Val.Literal] at h
  | _, _, .named n d args, l, hl, h => by cases hl; simp [Val.Literal] at h

theorem matches_vals : ∀ {vs : Vals} {args : Args}, HasTys vs args → ∀ {ls : Vals}, HasTys ls args → ls.Literal →
    ls.matches vs = some (decide (ls = vs))
  | _, _, .nil, l, hl, _ => by cases hl; simp [Vals.matches]
  | _, _, .cons hv hvs, l, hl, h => by
    cases hl with
    | cons h1 h2 =>
      rw [Vals.Literal] at h
      rw [Vals.matches, matches_eq hv h1 h.1, matches_vals hvs h2 h.2]
      simp

end

/-- The components of the list have their types. -/
def Typed (l : List (Nat × Val × Ty)) : Prop := ∀ x ∈ l, HasTy x.2.1 x.2.2 ∧ x.2.1.Literal ∧ x.2.2.NoNever ∧ ∀ w, x.2.2.contains w = false

theorem typed_parts : ∀ {l : List (Nat × Val × Ty)}, Typed l → HasTys (toVals l) (toParts l) ∧ (toVals l).Literal ∧
    (toParts l).NoNever ∧ ∀ w, (toParts l).contains w = false
  | [], _ => ⟨.nil, by simp [toVals, Vals.Literal], by simp [toParts, Args.NoNever], by simp [toParts, Args.contains]⟩
  | x :: l, h => by
    obtain ⟨h1, h2, h3, h4⟩ := h x (by simp)
    obtain ⟨i1, i2, i3, i4⟩ := typed_parts (l := l) fun y hy => h y (by simp [hy])
    exact ⟨.cons h1 i1, by simp [toVals, Vals.Literal, *], by simp [toParts, Args.NoNever, *], by simp [toParts, Args.contains, *]⟩

theorem typed_fields : ∀ {l : List (Nat × Val × Ty)}, Typed l → HasTys (toVals l) (toFields l) ∧ (toVals l).Literal ∧
    (toFields l).NoNever ∧ ∀ w, (toFields l).contains w = false
  | [], _ => ⟨.nil, by simp [toVals, Vals.Literal], by simp [toFields, Args.NoNever], by simp [toFields, Args.contains]⟩
  | x :: l, h => by
    obtain ⟨h1, h2, h3, h4⟩ := h x (by simp)
    obtain ⟨i1, i2, i3, i4⟩ := typed_fields (l := l) fun y hy => h y (by simp [hy])
    exact ⟨.cons h1 i1, by simp [toVals, Vals.Literal, *], by simp [toFields, Args.NoNever, *], by simp [toFields, Args.contains, *]⟩

theorem insertField_perm (x : Nat × Val × Ty) : ∀ l, (insertField x l).Perm (x :: l)
  | [] => .refl _
  | y :: l => by
    unfold insertField
    split
    · exact .refl _
    · exact ((insertField_perm x l).cons y).trans (.swap x y l)

theorem sortFields_perm : ∀ l, (sortFields l).Perm l
  | [] => .refl _
  | x :: l => (insertField_perm x _).trans ((sortFields_perm l).cons x)

mutual

theorem lit_typed : ∀ (p : Pat) {l : Val} {t : Ty}, p.lit = some (l, t) → HasTy l t ∧ l.Literal ∧ t.NoNever ∧ ∀ w, t.contains w = false
  | .unit, _, _, h => by
    simp only [Pat.lit, Option.some.injEq, Prod.mk.injEq] at h
    obtain ⟨rfl, rfl⟩ := h
    exact ⟨.unit, by simp [Val.Literal], by simp [unitTy, Ty.NoNever, Args.NoNever], by simp [unitTy, Ty.contains, Args.contains]⟩
  | .bool b, _, _, h => by
    simp only [Pat.lit, Option.some.injEq, Prod.mk.injEq] at h
    obtain ⟨rfl, rfl⟩ := h
    exact ⟨.bool b, by simp [Val.Literal], by simp [boolTy, Ty.NoNever, Args.NoNever], by simp [boolTy, Ty.contains, Args.contains]⟩
  | .int n, _, _, h => by
    simp only [Pat.lit, Option.some.injEq, Prod.mk.injEq] at h
    obtain ⟨rfl, rfl⟩ := h
    exact ⟨.int n, by simp [Val.Literal], by simp [intTy, Ty.NoNever, Args.NoNever], by simp [intTy, Ty.contains, Args.contains]⟩
  | .str s, _, _, h => by
    simp only [Pat.lit, Option.some.injEq, Prod.mk.injEq] at h
    obtain ⟨rfl, rfl⟩ := h
    exact ⟨.str s, by simp [Val.Literal], by simp [strTy, Ty.NoNever, Args.NoNever], by simp [strTy, Ty.contains, Args.contains]⟩
  | .tuple ps, _, _, h => by
    rw [Pat.lit, Option.map_eq_some_iff] at h
    obtain ⟨L, h1, h2⟩ := h
    cases h2
    obtain ⟨i1, i2, i3, i4⟩ := typed_parts (lits_typed ps h1)
    exact ⟨.tuple i1, by rw [Val.Literal]; exact i2, by rw [Ty.NoNever]; exact i3, fun w => by rw [Ty.contains]; exact i4 w⟩
  | .record fs, _, _, h => by
    simp only [Pat.lit, Option.bind_eq_bind, Option.bind_eq_some_iff] at h
    obtain ⟨L, h1, h2⟩ := h
    unfold recordPattern at h2
    dsimp only at h2
    split at h2
    · cases h2
      have hL := fields_typed fs h1
      obtain ⟨i1, i2, i3, i4⟩ := typed_fields (l := sortFields L) fun x hx => hL x ((sortFields_perm L).mem_iff.1 hx)
      exact ⟨.record i1, by rw [Val.Literal]; exact i2, by rw [Ty.NoNever]; exact i3, fun w => by rw [Ty.contains]; exact i4 w⟩
    · cases h2

theorem lits_typed : ∀ (ps : Pats) {L : List (Nat × Val × Ty)}, ps.lit = some L → Typed L
  | .nil, L, h => by
    simp only [Pats.lit, Option.some.injEq] at h
    subst h
    exact fun x hx => by simp at hx
  | .cons p ps, L, h => by
    simp only [Pats.lit, Option.bind_eq_bind, Option.bind_eq_some_iff] at h
    obtain ⟨x, h1, L', h2, h3⟩ := h
    cases h3
    intro y hy
    rcases List.mem_cons.1 hy with rfl | hy
    · exact lit_typed p h1
    · exact lits_typed ps h2 y hy

theorem fields_typed : ∀ (fs : Fields) {L : List (Nat × Val × Ty)}, fs.lit = some L → Typed L
  | .nil, L, h => by
    simp only [Fields.lit, Option.some.injEq] at h
    subst h
    exact fun x hx => by simp at hx
  | .cons _ p fs, L, h => by
    simp only [Fields.lit, Option.bind_eq_bind, Option.bind_eq_some_iff] at h
    obtain ⟨x, h1, L', h2, h3⟩ := h
    cases h3
    intro y hy
    rcases List.mem_cons.1 hy with rfl | hy
    · exact lit_typed p h1
    · exact fields_typed fs h2 y hy

end

/-! ### Fitting a pattern is being equal to its literal -/

theorem names_toFields : ∀ l : List (Nat × Val × Ty), (toFields l).names = l.map fun x => some x.1
  | [] => rfl
  | x :: l => by rw [toFields, Args.names, names_toFields l]; rfl

theorem names_lit : ∀ (fs : Fields) {L : List (Nat × Val × Ty)}, fs.lit = some L → L.map (·.1) = fs.names
  | .nil, L, h => by
    simp only [Fields.lit, Option.some.injEq] at h
    subst h
    rfl
  | .cons _ p fs, L, h => by
    simp only [Fields.lit, Option.bind_eq_bind, Option.bind_eq_some_iff] at h
    obtain ⟨x, h1, L', h2, h3⟩ := h
    cases h3
    rw [List.map_cons, names_lit fs h2, Fields.names]

/-- The fields of a record of the type of a list of fields. -/
theorem field_mem : ∀ {l : List (Nat × Val × Ty)}, (l.map (·.1)).Nodup → ∀ {vs : Vals}, HasTys vs (toFields l) →
    ∀ x ∈ l, ∃ v, field (toFields l) vs x.1 = some (x.2.2, v) ∧ HasTy v x.2.2
  | y :: l, hn, vs, hv, x, hx => by
    rw [toFields] at hv ⊢
    cases hv with
    | cons h1 h2 =>
      rw [List.map_cons, List.nodup_cons] at hn
      rcases List.mem_cons.1 hx with rfl | hx
      · exact ⟨_, by rw [field, if_pos rfl], h1⟩
      · obtain ⟨v, i1, i2⟩ := field_mem hn.2 h2 x hx
        refine ⟨v, ?_, i2⟩
        rw [field, if_neg, i1]
        intro he
        simp only [Option.some.injEq] at he
        exact hn.1 (he ▸ List.mem_map.2 ⟨x, hx, rfl⟩)

theorem fields_eq : ∀ {l : List (Nat × Val × Ty)}, (l.map (·.1)).Nodup → ∀ {vs : Vals}, HasTys vs (toFields l) →
    ((∀ x ∈ l, ∃ t, field (toFields l) vs x.1 = some (t, x.2.1)) ↔ vs = toVals l)
  | [], _, vs, hv => by cases hv; simp [toVals]
  | y :: l, hn, vs, hv => by
    rw [toFields] at hv ⊢
    cases hv with
    | cons h1 h2 =>
      rename_i v vs
      rw [List.map_cons, List.nodup_cons] at hn
      have ih := fields_eq hn.2 h2
      have hskip : ∀ x ∈ l, field (.cons (some y.1) y.2.2 (toFields l)) (.cons v vs) x.1 = field (toFields l) vs x.1 := by
        intro x hx
        rw [field, if_neg]
        intro he
        simp only [Option.some.injEq] at he
        exact hn.1 (he ▸ List.mem_map.2 ⟨x, hx, rfl⟩)
      rw [toVals, Vals.cons.injEq, ← ih, List.forall_mem_cons]
      refine and_congr ?_ (forall_congr' fun x => forall_congr' fun hx => by rw [hskip x hx])
      rw [field, if_pos rfl]
      constructor
      · rintro ⟨t, ht⟩
        simp only [Option.some.injEq, Prod.mk.injEq] at ht
        exact ht.2
      · rintro rfl
        exact ⟨_, rfl⟩

mutual

theorem fits_iff : ∀ (p : Pat) {l : Val} {t : Ty}, p.lit = some (l, t) → ∀ {v : Val}, HasTy v t → (p.Fits t v ↔ v = l)
  | .unit, _, _, h, v, _ => by
    simp only [Pat.lit, Option.some.injEq, Prod.mk.injEq] at h
    rw [Pat.Fits, h.1]
  | .bool b, _, _, h, v, _ => by
    simp only [Pat.lit, Option.some.injEq, Prod.mk.injEq] at h
    rw [Pat.Fits, h.1]
  | .int n, _, _, h, v, _ => by
    simp only [Pat.lit, Option.some.injEq, Prod.mk.injEq] at h
    rw [Pat.Fits, h.1]
  | .str s, _, _, h, v, _ => by
    simp only [Pat.lit, Option.some.injEq, Prod.mk.injEq] at h
    rw [Pat.Fits, h.1]
  | .tuple ps, _, _, h, v, hv => by
    rw [Pat.lit, Option.map_eq_some_iff] at h
    obtain ⟨L, h1, h2⟩ := h
    cases h2
    cases hv with
    | tuple hv =>
      rw [Pat.Fits, fits_pats ps h1 hv, Val.tuple.injEq]
  | .record fs, _, _, h, v, hv => by
    simp only [Pat.lit, Option.bind_eq_bind, Option.bind_eq_some_iff] at h
    obtain ⟨L, h1, h2⟩ := h
    unfold recordPattern at h2
    dsimp only at h2
    split at h2
    · rename_i hn
      cases h2
      cases hv with
      | record hv =>
        have hm : ∀ x ∈ L, x ∈ sortFields L := fun x hx => (sortFields_perm L).mem_iff.2 hx
        rw [Pat.Fits, Val.tuple.injEq, ← fields_eq hn hv,
          fits_fields fs h1 (fun x hx => field_mem hn hv x (hm x hx)), names_toFields]
        constructor
        · exact fun h x hx => h.2 x ((sortFields_perm L).mem_iff.1 hx)
        · refine fun h => ⟨fun n hn => ?_, fun x hx => h x (hm x hx)⟩
          obtain ⟨x, hx, rfl⟩ := List.mem_map.1 hn
          refine ⟨x.1, ?_, rfl⟩
          rw [← names_lit fs h1]
          exact List.mem_map.2 ⟨x, (sortFields_perm L).mem_iff.1 hx, rfl⟩
    · cases h2

theorem fits_pats : ∀ (ps : Pats) {L : List (Nat × Val × Ty)}, ps.lit = some L → ∀ {vs : Vals}, HasTys vs (toParts L) →
    (ps.Fits (toParts L) vs ↔ vs = toVals L)
  | .nil, L, h, vs, hv => by
    simp only [Pats.lit, Option.some.injEq] at h
    subst h
    cases hv
    simp [Pats.Fits, toVals, toParts]
  | .cons p ps, L, h, vs, hv => by
    simp only [Pats.lit, Option.bind_eq_bind, Option.bind_eq_some_iff] at h
    obtain ⟨x, h1, L', h2, h3⟩ := h
    cases h3
    rw [toParts] at hv ⊢
    cases hv with
    | cons i1 i2 =>
      rw [Pats.Fits, fits_iff p h1 i1, fits_pats ps h2 i2, toVals, Vals.cons.injEq]

theorem fits_fields : ∀ (fs : Fields) {L : List (Nat × Val × Ty)}, fs.lit = some L → ∀ {args : Args} {vs : Vals},
    (∀ x ∈ L, ∃ v, field args vs x.1 = some (x.2.2, v) ∧ HasTy v x.2.2) →
    (fs.Fits args vs ↔ ∀ x ∈ L, ∃ t, field args vs x.1 = some (t, x.2.1))
  | .nil, L, h, args, vs, _ => by
    simp only [Fields.lit, Option.some.injEq] at h
    subst h
    simp [Fields.Fits]
  | .cons n p fs, L, h, args, vs, hx => by
    simp only [Fields.lit, Option.bind_eq_bind, Option.bind_eq_some_iff] at h
    obtain ⟨x, h1, L', h2, h3⟩ := h
    cases h3
    obtain ⟨v, i1, i2⟩ := hx (n, x) (by simp)
    rw [Fields.Fits, fits_fields fs h2 (fun y hy => hx y (by simp [hy])), List.forall_mem_cons]
    refine and_congr ?_ Iff.rfl
    dsimp only at i1 i2 ⊢
    rw [i1]
    constructor
    · rintro ⟨t, w, h3, h4⟩
      cases h3
      exact ⟨_, by rw [(fits_iff p (l := x.1) h1 i2).1 h4]⟩
    · rintro ⟨t, h3⟩
      simp only [Option.some.injEq, Prod.mk.injEq] at h3
      exact ⟨_, v, rfl, (fits_iff p (l := x.1) h1 i2).2 h3.2⟩

end

/-! ### Enumeration -/

theorem mem_product : ∀ (pools result : List (List Val)) (l : List Val), l ∈ product result pools ↔
    ∃ pre ∈ result, ∃ s, l = pre ++ s ∧ List.Forall₂ (fun v (pool : List Val) => v ∈ pool) s pools
  | [], result, l => by
    rw [product]
    constructor
    · exact fun h => ⟨l, h, [], by simp, .nil⟩
    · rintro ⟨pre, h1, s, rfl, h2⟩
      cases h2
      simpa using h1
  | pool :: pools, result, l => by
    rw [product, mem_product pools]
    constructor
    · rintro ⟨pre, h1, s, rfl, h2⟩
      obtain ⟨pre', h3, h4⟩ := List.mem_flatMap.1 h1
      obtain ⟨item, h5, rfl⟩ := List.mem_map.1 h4
      exact ⟨pre', h3, item :: s, by simp, .cons h5 h2⟩
    · rintro ⟨pre, h1, s, rfl, h2⟩
      cases h2 with
      | cons h3 h4 =>
        exact ⟨_, List.mem_flatMap.2 ⟨pre, h1, List.mem_map.2 ⟨_, h3, rfl⟩⟩, _, by simp, h4⟩

theorem exists_list : ∀ vs : Vals, ∃ l, vs = ofList l
  | .nil => ⟨[], rfl⟩
  | .cons v vs => by
    obtain ⟨l, rfl⟩ := exists_list vs
    exact ⟨v :: l, rfl⟩

theorem mem_cartesian {max : Nat} {pools : List (List Val)} {r : List Val} (h : cartesian max pools = some r) (v : Val) :
    v ∈ r ↔ ∃ l, v = .tuple (ofList l) ∧ List.Forall₂ (fun v (pool : List Val) => v ∈ pool) l pools := by
  unfold cartesian at h
  split at h
  · cases h
  · cases h
    rw [List.mem_map]
    constructor
    · rintro ⟨l, h1, rfl⟩
      rw [mem_product] at h1
      obtain ⟨pre, h1, s, rfl, h2⟩ := h1
      simp only [List.mem_singleton] at h1
      subst h1
      exact ⟨_, rfl, h2⟩
    · rintro ⟨l, rfl, h1⟩
      exact ⟨l, (mem_product _ _ _).2 ⟨[], by simp, l, rfl, h1⟩, rfl⟩

mutual

theorem mem_allValues : ∀ (t : Ty) {vs : List Val}, t.allValues = some vs → ∀ v, v ∈ vs ↔ HasTy v t
  | .never, _, h, v => by
    simp only [Ty.allValues, Option.some.injEq] at h
    subst h
    exact ⟨fun h => by simp at h, fun h => by cases h⟩
  | .var _, _, h, v => by simp [Ty.allValues] at h
  | .node (.native k) args, _, h, v => by
    rw [Ty.allValues] at h
    split at h
    · rename_i ha
      subst ha
      split at h
      · rename_i hk
        subst hk
        cases h
        exact ⟨fun h => by simp at h; subst h; exact .unit, fun h => by cases h <;> simp_all⟩
      · split at h
        · rename_i hk
          subst hk
          cases h
          refine ⟨fun h => ?_, fun h => ?_⟩
          · simp at h
            rcases h with rfl | rfl
            · exact .bool _
            · exact .bool _
          · cases h with
            | bool b => cases b <;> simp
            | native n k args h => simp at h
        · cases h
    · cases h
  | .node .tuple args, _, h, v => by
    simp only [Ty.allValues, Option.bind_eq_bind, Option.bind_eq_some_iff] at h
    obtain ⟨pools, h1, h2⟩ := h
    rw [mem_cartesian h2]
    constructor
    · rintro ⟨l, rfl, h3⟩
      exact .tuple ((mem_allArgs args h1 l).1 h3)
    · intro h
      cases h with
      | tuple h =>
        rename_i vs
        obtain ⟨l, rfl⟩ := exists_list vs
        exact ⟨l, rfl, (mem_allArgs args h1 l).2 h⟩
  | .node .record args, _, h, v => by
    simp only [Ty.allValues, Option.bind_eq_bind, Option.bind_eq_some_iff] at h
    obtain ⟨pools, h1, h2⟩ := h
    rw [mem_cartesian h2]
    constructor
    · rintro ⟨l, rfl, h3⟩
      exact .record ((mem_allArgs args h1 l).1 h3)
    · intro h
      cases h with
      | record h =>
        rename_i vs
        obtain ⟨l, rfl⟩ := exists_list vs
        exact ⟨l, rfl, (mem_allArgs args h1 l).2 h⟩
  | .node .variant _, _, h, v => by simp [Ty.allValues] at h
  | .node .function _, _, h, v => by simp [Ty.allValues] at h
  | .node (.named _) _, _, h, v => by simp [Ty.allValues] at h

theorem mem_allArgs : ∀ (args : Args) {pools : List (List Val)}, args.allValues = some pools → ∀ l,
    List.Forall₂ (fun v (pool : List Val) => v ∈ pool) l pools ↔ HasTys (ofList l) args
  | .nil, _, h, l => by
    simp only [Args.allValues, Option.some.injEq] at h
    subst h
    constructor
    · intro h
      cases h
      exact .nil
    · intro h
      cases l with
      | nil => exact .nil
      | cons => cases h
  | .cons n t rest, _, h, l => by
    simp only [Args.allValues, Option.bind_eq_bind, Option.bind_eq_some_iff] at h
    obtain ⟨vs, h1, pools, h2, h3⟩ := h
    cases h3
    constructor
    · intro h
      cases h with
      | cons h3 h4 => exact .cons ((mem_allValues t h1 _).1 h3) ((mem_allArgs rest h2 _).1 h4)
    · intro h
      cases l with
      | nil => cases h
      | cons v l =>
        cases h with
        | cons h3 h4 => exact .cons ((mem_allValues t h1 _).2 h3) ((mem_allArgs rest h2 _).2 h4)

end

/-- C66: the values listed for a type are exactly its values. -/
theorem C66_enumerates (t : Ty) (vs : List Val) (h : t.allValues = some vs) (v : Val) : v ∈ vs ↔ HasTy v t := mem_allValues t h v

/-! ### Types -/

mutual

theorem shape_eq : ∀ {v : Val} {t : Ty}, HasTy v t → ∀ {T : Ty}, SameShape t T → T.NoNever → ∀ {l : Val}, HasTy l T → l.Literal → t = T
  | _, _, .unit, T, h, hn, _, _, _ => by
    cases h with
    | right => simp [Ty.NoNever] at hn
    | node h => cases h; rfl
  | _, _, .bool _, T, h, hn, _, _, _ => by
    cases h with
    | right => simp [Ty.NoNever] at hn
    | node h => cases h; rfl
  | _, _, .int _, T, h, hn, _, _, _ => by
    cases h with
    | right => simp [Ty.NoNever] at hn
    | node h => cases h; rfl
  | _, _, .str _, T, h, hn, _, _, _ => by
    cases h with
    | right => simp [Ty.NoNever] at hn
    | node h => cases h; rfl
  | _, _, .tuple hv, T, h, hn, _, hl, hl' => by
    cases h with
    | right => simp [Ty.NoNever] at hn
    | node h =>
      rw [Ty.NoNever] at hn
      cases hl with
      | tuple hl =>
        rw [Val.Literal] at hl'
        rw [shape_parts hv h hn hl hl']
  | _, _, .record hv, T, h, hn, _, hl, hl' => by
    cases h with
    | right => simp [Ty.NoNever] at hn
    | node h =>
      rw [Ty.NoNever] at hn
      cases hl with
      | record hl =>
        rw [Val.Literal] at hl'
        rw [shape_parts hv h hn hl hl']
  | _, _, .native n k args hk, T, h, hn, _, hl, hl' => by
    cases h with
    | right => simp [Ty.NoNever] at hn
    | node h =>
      cases hl with
      | native => simp [Val.Literal] at hl'
      | unit => cases h; rfl
      | bool => cases h; rfl
      | int => cases h; rfl
      | str => cases h; rfl
  | _, _, .variant n args, T, h, hn, _, hl, hl' => by
    cases h with
    | right => simp [Ty.NoNever] at hn
    | node h => cases hl; simp [Val.Literal] at hl'
  | _, _, .function n args, T, h, hn, _, hl, hl' => by
    cases h with
    | right => simp [Ty.NoNever] at hn
    | node h => cases hl; simp [Val.Literal] at hl'
  | _, _, .named n d args, T, h, hn, _, hl, hl' => by
    cases h with
    | right => simp [Ty.NoNever] at hn
    | node h => cases hl; simp [Val.Literal] at hl'

theorem shape_parts : ∀ {vs : Vals} {a : Args}, HasTys vs a → ∀ {b : Args}, SameParts a b → b.NoNever → ∀ {ls : Vals}, HasTys ls b →
    ls.Literal → a = b
  | _, _, .nil, b, h, _, _, _, _ => by cases h; rfl
  | _, _, .cons h1 h2, b, h, hn, _, hl, hl' => by
    cases h with
    | cons h3 h4 =>
      rw [Args.NoNever] at hn
      cases hl with
      | cons i1 i2 =>
        rw [Vals.Literal] at hl'
        rw [shape_eq h1 h3 hn.1 i1 hl'.1, shape_parts h2 h4 hn.2 i2 hl'.2]

end

variable {S : Head → List (Option Nat) → Prop} {pick : Nat → Nat → Bool}

theorem subst_closed {t : Ty} (h : ∀ w, t.contains w = false) (ρ : Nat → Ty) : t.subst ρ = t := by
  conv_rhs => rw [← Ty.subst_var t]
  exact Ty.subst_congr _ fun w hw => by rw [h w] at hw; cases hw

/-- What is known after a match is accepted. -/
theorem check_ok (hS : Tidy S) {t : Ty} (ht : t.Sorted S) (htc : ∀ w, t.contains w = false) {lits : List (Val × Ty)} (hne : lits ≠ [])
    (hl : ∀ x ∈ lits, x.2.Sorted S ∧ x.2.NoNever ∧ ∀ w, x.2.contains w = false) {d : Bool}
    (h : check pick t lits d = some (.ok ())) : (lits.map (·.1)).Nodup ∧ ∃ T : Ty, (∀ x ∈ lits, x.2 = T) ∧ SameShape t T ∧
      (d = false → ∃ vs, T.allValues = some vs ∧ ∀ v ∈ vs, v ∈ lits.map (·.1)) := by
  unfold check at h
  by_cases hd : (lits.map (·.1)).Nodup
  · rw [if_neg (by simpa using hd)] at h
    refine ⟨hd, ?_⟩
    have hin : ∀ (tab : Table) (u : Ty), (∀ w, u.contains w = false) → InTable tab u := fun tab u hu w hw => by
      rw [hu w] at hw; cases hw
    have hin0 : ∀ tab : Table, tab.length = 1 → InTable tab (.var 0) := fun tab hl w hw => by
      simp [Ty.contains] at hw; omega
    have hs0 : (Ty.var 0).Sorted S := by rw [Ty.Sorted]; trivial
    obtain ⟨r, hr, hp⟩ := solve_spec (pick := pick) hS.named (lits.map fun l => (l.2, .var 0)) (fresh 1) Ty.var (tri_fresh 1)
      (sorted_fresh 1) (fun e he => by
        obtain ⟨x, hx, rfl⟩ := List.mem_map.1 he
        obtain ⟨h1, h2, h3⟩ := hl x hx
        exact ⟨hin _ _ h3, hin0 _ (by simp [fresh]), h1, hs0⟩)
    rw [hr] at h
    cases r with
    | error e => simp at h
    | ok tab =>
      obtain ⟨p1, ⟨θ, p2⟩, p3, p4, p5, p6⟩ := hp
      have hlen : tab.length = 1 := by rw [p1]; simp [fresh]
      have hnn : NoNeverTable tab := solve_noNever _ _ _ _ hr (noNever_fresh 1) (fun e he => by
        obtain ⟨x, hx, rfl⟩ := List.mem_map.1 he
        exact ⟨(hl x hx).2.1, by rw [Ty.NoNever]; trivial⟩)
      have hall : ∀ x ∈ lits, x.2 = θ 0 := by
        intro x hx
        obtain ⟨h1, h2, h3⟩ := hl x hx
        have ha := (p5 θ p2.respects).2 (x.2, .var 0) (List.mem_map.2 ⟨x, hx, rfl⟩)
        dsimp only at ha
        rw [subst_closed h3, Ty.subst] at ha
        exact (sameShape hS ha h1 (p2.sorted p3 0)).eq h2 (tri_noNever p2 hnn 0)
      obtain ⟨x0, hx0⟩ := List.exists_mem_of_ne_nil lits hne
      have hclosed : ∀ w, (θ 0).contains w = false := by rw [← hall x0 hx0]; exact (hl x0 hx0).2.2
      refine ⟨θ 0, hall, ?_⟩
      obtain ⟨r, hr', hq⟩ := solve_spec (pick := pick) hS.named [(t, .var 0)] tab θ p2 p3 (fun e he => by
        simp only [List.mem_singleton] at he
        subst he
        exact ⟨hin _ _ htc, hin0 _ hlen, ht, hs0⟩)
      have hshape : ∀ tab', r = .ok tab' → SameShape t (θ 0) := by
        rintro tab' rfl
        obtain ⟨q1, ⟨θ', q2⟩, q3, q4, q5, q6⟩ := hq
        obtain ⟨a1, a2⟩ := q5 θ' q2.respects
        have ha := a2 (t, .var 0) (by simp)
        dsimp only at ha
        have h0 : θ' 0 = θ 0 := by
          have := p2.agree a1 (.var 0)
          rw [Ty.subst, Ty.subst, subst_closed hclosed] at this
          exact this.symm
        rw [subst_closed htc, Ty.subst, h0] at ha
        refine sameShape hS ha ht ?_
        rw [← hall x0 hx0]
        exact (hl x0 hx0).1
      have hnorm : Unify.normalize tab (.var 0) = some (θ 0) := p2.normalize (hin0 _ hlen)
      dsimp only at h
      rw [hnorm, hr'] at h
      cases r with
      | error e =>
        cases d
        · simp only [Bool.false_eq_true, if_false] at h
          cases hv : (θ 0).allValues with
          | none => rw [hv] at h; simp at h
          | some vs => rw [hv] at h; dsimp only at h; split at h <;> simp at h
        · simp at h
      | ok tab' =>
        refine ⟨hshape tab' rfl, ?_⟩
        rintro rfl
        simp only [Bool.false_eq_true, if_false] at h
        cases hv : (θ 0).allValues with
        | none => rw [hv] at h; simp at h
        | some vs =>
          rw [hv] at h
          dsimp only at h
          split at h
          · rename_i hc
            refine ⟨vs, rfl, fun v hv => ?_⟩
            have := List.all_eq_true.1 hc v hv
            simpa using this
          · simp at h
  · rw [if_pos (by simpa using hd)] at h
    simp at h

/-! ### The chosen arm -/

theorem test_eq (l v : Val) : test l v = l.matches v := by
  cases l with
  | bool e => cases v <;> simp [test, Val.matches]; cases e <;> simp
  | _ => rfl

/-- C66: compiled code and the evaluator choose the same arm. -/
theorem C66_compiled_agrees {α} (d : α) : ∀ (alts : List (Val × α)) (v : Val), branch d alts v = select d alts v
  | [], _ => rfl
  | (l, a) :: rest, v => by
    rw [branch, select, test_eq, C66_compiled_agrees d rest v]

theorem mapM_forall₂ {α β} {f : α → Option β} : ∀ {l : List α} {r : List β}, l.mapM f = some r → List.Forall₂ (fun a b => f a = some b) l r
  | [], r, h => by
    simp only [List.mapM_nil, Option.pure_def, Option.some.injEq] at h
    subst h
    exact .nil
  | a :: l, r, h => by
    simp only [List.mapM_cons, Option.pure_def, Option.bind_eq_bind, Option.bind_eq_some_iff, Option.some.injEq] at h
    obtain ⟨b, h1, bs, h2, rfl⟩ := h
    exact .cons h1 (mapM_forall₂ h2)

theorem forall₂_mapM {α β} {f : α → Option β} {l : List α} {r : List β} (h : List.Forall₂ (fun a b => f a = some b) l r) :
    l.mapM f = some r := by
  induction h with
  | nil => rfl
  | cons h1 _ ih => rw [List.mapM_cons, h1, ih]; rfl

theorem select_chosen {α} (d : α) {T : Ty} {v : Val} (hv : HasTy v T) : ∀ {arms : List (Pat × α)} {lits : List (Val × Ty)},
    List.Forall₂ (fun a x => a.1.lit = some x) arms lits → (∀ x ∈ lits, x.2 = T) →
    ∃ a, select d ((lits.map (·.1)).zip (arms.map (·.2))) v = some a ∧ Chosen T v arms (some d) a
  | [], _, h, _ => by
    cases h
    exact ⟨d, rfl, .default⟩
  | (p, a) :: arms, _, h, hT => by
    cases h with
    | cons h1 h2 =>
      rename_i x lits
      have hx : x.2 = T := hT x (by simp)
      obtain ⟨l, T'⟩ := x
      dsimp only at hx h1
      subst hx
      obtain ⟨t1, t2, t3, t4⟩ := lit_typed p h1
      obtain ⟨b, i1, i2⟩ := select_chosen d hv h2 fun x hx => hT x (by simp [hx])
      rw [List.map_cons, List.map_cons, List.zip_cons_cons, select, matches_eq hv t1 t2]
      by_cases he : l = v
      · exact ⟨a, by simp [he], .here ((fits_iff p h1 hv).2 he.symm)⟩
      · exact ⟨b, by simpa [he] using i1, .next (fun hf => he ((fits_iff p h1 hv).1 hf).symm) i2⟩

theorem Chosen.concat {α} {t : Ty} {v : Val} {last : Pat × α} : ∀ {init : List (Pat × α)} {a : α}, Chosen t v init (some last.2) a →
    (∃ x ∈ init ++ [last], x.1.Fits t v) → Chosen t v (init ++ [last]) none a
  | _, _, .here h, _ => .here h
  | _, _, .next h h', hx => .next h (h'.concat (by
      obtain ⟨x, hx, hf⟩ := hx
      rw [List.cons_append] at hx
      rcases List.mem_cons.1 hx with rfl | hx
      · exact absurd hf h
      · exact ⟨x, hx, hf⟩))
  | _, _, .default, hx => by
    obtain ⟨x, hx, hf⟩ := hx
    simp only [List.nil_append, List.mem_singleton] at hx
    subst hx
    exact .here hf

theorem forall₂_mem {α β} {R : α → β → Prop} {l : List α} {r : List β} (h : List.Forall₂ R l r) : ∀ b ∈ r, ∃ a ∈ l, R a b := by
  induction h with
  | nil => simp
  | cons h1 _ ih =>
    intro b hb
    rcases List.mem_cons.1 hb with rfl | hb
    · exact ⟨_, by simp, h1⟩
    · obtain ⟨a, ha, h⟩ := ih b hb
      exact ⟨a, by simp [ha], h⟩

/-- C66: in an accepted match on literals, every value of the type reaches the result of the first arm whose pattern it fits,
and that of the default if there is one and no arm fits; nothing panics.  Missing: as in C38, no record type may have the fields of
another one followed by more. -/
theorem C66_chosen_partial {α} (hS : Tidy S) (pick : Nat → Nat → Bool) (t : Ty) (ht : t.Sorted S) (htc : ∀ w, t.contains w = false)
    (arms : List (Pat × α)) (hne : arms ≠ []) (hs : ∀ x ∈ arms, ∀ l T, x.1.lit = some (l, T) → T.Sorted S) (default : Option α)
    (alts : List (Val × α)) (d : α) (h : compile pick t arms default = some (.ok (alts, d))) (v : Val) (hv : HasTy v t) :
    ∃ a, select d alts v = some a ∧ Chosen t v arms default a := by
  unfold compile at h
  cases hm : arms.mapM (fun a => a.1.lit) with
  | none => rw [hm] at h; simp at h
  | some lits =>
    rw [hm] at h
    dsimp only at h
    have hf := mapM_forall₂ hm
    have hne' : lits ≠ [] := by
      rintro rfl
      cases hf
      exact hne rfl
    cases hc : check pick t lits default.isSome with
    | none => rw [hc] at h; simp at h
    | some r =>
      rw [hc] at h
      cases r with
      | error e => simp at h
      | ok u =>
        dsimp only at h
        have hl : ∀ x ∈ lits, HasTy x.1 x.2 ∧ x.1.Literal ∧ x.2.Sorted S ∧ x.2.NoNever ∧ ∀ w, x.2.contains w = false := by
          intro x hx
          obtain ⟨a, ha, he⟩ := forall₂_mem hf x hx
          obtain ⟨h1, h2, h3, h4⟩ := lit_typed a.1 he
          exact ⟨h1, h2, hs a ha _ _ he, h3, h4⟩
        obtain ⟨hd, T, hT, hshape, hcov⟩ := check_ok hS ht htc hne' (fun x hx => (hl x hx).2.2) hc
        obtain ⟨x0, hx0⟩ := List.exists_mem_of_ne_nil lits hne'
        have htT : t = T := by
          obtain ⟨h1, h2, h3, h4, h5⟩ := hl x0 hx0
          rw [hT x0 hx0] at h1 h4
          exact shape_eq hv hshape h4 h1 h2
        subst htT
        cases default with
        | some d' =>
          rw [lower] at h
          cases h
          exact select_chosen _ hv hf hT
        | none =>
          obtain ⟨vs, hvs, hcov⟩ := hcov rfl
          have hmem := hcov v ((mem_allValues t hvs v).2 hv)
          obtain ⟨x, hx, rfl⟩ := List.mem_map.1 hmem
          obtain ⟨ax, hax, hex⟩ := forall₂_mem hf x hx
          have hfit : ax.1.Fits t x.1 := by
            have := hT x hx
            obtain ⟨l, T'⟩ := x
            dsimp only at this hex hv ⊢
            subst this
            exact (fits_iff ax.1 hex hv).2 rfl
          rcases List.eq_nil_or_concat' arms with rfl | ⟨init, last, rfl⟩
          · exact absurd rfl hne
          · rcases List.eq_nil_or_concat' lits with rfl | ⟨linit, llast, rfl⟩
            · exact absurd rfl hne'
            · have hlen : init.length = linit.length := by simpa using hf.length_eq
              have hf' : List.Forall₂ (fun a x => a.1.lit = some x) init linit := by
                have := hf.flip
                have h1 := List.forall₂_take linit.length hf
                simpa [hlen] using h1
              have hz : ((linit ++ [llast]).map (·.1)).zip ((init ++ [last]).map (·.2)) =
                  (linit.map (·.1)).zip (init.map (·.2)) ++ [(llast.1, last.2)] := by
                rw [List.map_append, List.map_append, List.zip_append (by simp [hlen])]
                rfl
              rw [hz, lower, List.getLast?_concat, List.dropLast_concat] at h
              cases h
              obtain ⟨a, i1, i2⟩ := select_chosen last.2 hv hf' fun x hx => hT x (by simp [hx])
              exact ⟨a, i1, i2.concat ⟨ax, hax, hfit⟩⟩

/-! ### What is enumerated -/

theorem product_nodup : ∀ {pools result : List (List Val)}, result.Nodup → (∀ pool ∈ pools, pool.Nodup) → (product result pools).Nodup
  | [], _, h, _ => h
  | pool :: pools, result, h, hp => by
    rw [product]
    refine product_nodup ?_ fun q hq => hp q (by simp [hq])
    rw [List.nodup_flatMap]
    refine ⟨fun pre _ => (hp pool (by simp)).map fun a b hab => by simpa using hab, h.imp_of_mem fun {a b} _ _ hab => ?_⟩
    rw [Function.onFun, List.disjoint_left]
    intro l h1 h2
    obtain ⟨x, _, rfl⟩ := List.mem_map.1 h1
    obtain ⟨y, _, h3⟩ := List.mem_map.1 h2
    exact hab (List.append_inj_left' h3 rfl).symm

theorem product_length : ∀ (pools result : List (List Val)), (product result pools).length = result.length * (pools.map (·.length)).prod
  | [], result => by simp [product]
  | pool :: pools, result => by
    rw [product, product_length pools, List.map_cons, List.prod_cons, ← Nat.mul_assoc]
    congr 1
    simp

theorem ofList_injective : ∀ {a b : List Val}, ofList a = ofList b → a = b
  | [], [], _ => rfl
  | [], _ :: _, h => by cases h
  | _ :: _, [], h => by cases h
  | x :: a, y :: b, h => by
    rw [ofList, ofList, Vals.cons.injEq] at h
    rw [h.1, ofList_injective h.2]

theorem cartesian_nodup {max : Nat} {pools : List (List Val)} {r : List Val} (h : cartesian max pools = some r)
    (hp : ∀ pool ∈ pools, pool.Nodup) : r.Nodup := by
  unfold cartesian at h
  split at h
  · cases h
  · cases h
    exact (product_nodup (by simp) hp).map fun a b hab => ofList_injective (by simpa using hab)

mutual

theorem allValues_nodup : ∀ (t : Ty) {vs : List Val}, t.allValues = some vs → vs.Nodup
  | .never, _, h => by cases h; exact .nil
  | .var _, _, h => by simp [Ty.allValues] at h
  | .node (.native k) args, _, h => by
    rw [Ty.allValues] at h
    split at h
    · split at h
      · cases h; simp
      · split at h
        · cases h; simp
        · cases h
    · cases h
  | .node .tuple args, _, h => by
    simp only [Ty.allValues, Option.bind_eq_bind, Option.bind_eq_some_iff] at h
    obtain ⟨pools, h1, h2⟩ := h
    exact cartesian_nodup h2 (allArgs_nodup args h1)
  | .node .record args, _, h => by
    simp only [Ty.allValues, Option.bind_eq_bind, Option.bind_eq_some_iff] at h
    obtain ⟨pools, h1, h2⟩ := h
    exact cartesian_nodup h2 (allArgs_nodup args h1)
  | .node .variant _, _, h => by simp [Ty.allValues] at h
  | .node .function _, _, h => by simp [Ty.allValues] at h
  | .node (.named _) _, _, h => by simp [Ty.allValues] at h

theorem allArgs_nodup : ∀ (args : Args) {pools : List (List Val)}, args.allValues = some pools → ∀ pool ∈ pools, pool.Nodup
  | .nil, _, h, pool, hp => by cases h; simp at hp
  | .cons n t rest, _, h, pool, hp => by
    simp only [Args.allValues, Option.bind_eq_bind, Option.bind_eq_some_iff] at h
    obtain ⟨vs, h1, pools, h2, h3⟩ := h
    cases h3
    rcases List.mem_cons.1 hp with rfl | hp
    · exact allValues_nodup t h1
    · exact allArgs_nodup rest h2 pool hp

end

mutual

/-- A type whose values are few: made of units, booleans, tuples and records, with no more than a thousand values in any part. -/
inductive Few : Ty → Prop
  | never : Few .never
  | unit : Few (.node (.native 2) .nil)
  | bool : Few (.node (.native 1) .nil)
  | tuple {args} : FewArgs args → {v | HasTy v (.node .tuple args)}.ncard ≤ 1000 → Few (.node .tuple args)
  | record {args} : FewArgs args → {v | HasTy v (.node .record args)}.ncard ≤ 1000 → Few (.node .record args)

/-- The same for all parts. -/
inductive FewArgs : Args → Prop
  | nil : FewArgs .nil
  | cons {n t rest} : Few t → FewArgs rest → FewArgs (.cons n t rest)

end

theorem ncard_eq {vs : List Val} {P : Val → Prop} (hn : vs.Nodup) (h : ∀ v, v ∈ vs ↔ P v) : {v | P v}.ncard = vs.length := by
  have : {v | P v} = (vs.toFinset : Set Val) := by
    ext v
    simp [h v]
  rw [this, Set.ncard_coe_finset, List.toFinset_card_of_nodup hn]

theorem cartesian_isSome {max : Nat} {pools : List (List Val)} (hp : ∀ pool ∈ pools, pool.Nodup) {P : Val → Prop}
    (h : ∀ v, (∃ l, v = .tuple (ofList l) ∧ List.Forall₂ (fun v (pool : List Val) => v ∈ pool) l pools) ↔ P v) :
    (cartesian max pools).isSome ↔ {v | P v}.ncard ≤ max := by
  have hlen : {v | P v}.ncard = (pools.map (·.length)).prod := by
    rw [ncard_eq (vs := (product [[]] pools).map fun l => .tuple (ofList l)) ((product_nodup (by simp) hp).map fun a b hab =>
      ofList_injective (by simpa using hab)) (P := P) (fun v => by
        rw [← h v, List.mem_map]
        constructor
        · rintro ⟨l, h1, rfl⟩
          rw [mem_product] at h1
          obtain ⟨pre, h1, s, rfl, h2⟩ := h1
          simp only [List.mem_singleton] at h1
          subst h1
          exact ⟨_, rfl, h2⟩
        · rintro ⟨l, rfl, h1⟩
          exact ⟨l, (mem_product _ _ _).2 ⟨[], by simp, l, rfl, h1⟩, rfl⟩), List.length_map, product_length]
    simp
  rw [hlen, cartesian]
  split
  · simp; omega
  · simp; omega

mutual

theorem few_of : ∀ (t : Ty), t.allValues.isSome → Few t
  | .never, _ => .never
  | .var _, h => by simp [Ty.allValues] at h
  | .node (.native k) args, h => by
    rw [Ty.allValues] at h
    split at h
    · rename_i ha
      subst ha
      split at h
      · rename_i hk
        subst hk
        exact .unit
      · split at h
        · rename_i hk
          subst hk
          exact .bool
        · cases h
    · cases h
  | .node .tuple args, h => by
    rw [Ty.allValues] at h
    cases ha : args.allValues with
    | none => rw [ha] at h; simp at h
    | some pools =>
      rw [ha] at h
      refine .tuple (few_args args (by rw [ha]; rfl)) ((cartesian_isSome (allArgs_nodup args ha) fun v => ?_).1 h)
      constructor
      · rintro ⟨l, rfl, h3⟩
        exact .tuple ((mem_allArgs args ha l).1 h3)
      · intro h
        cases h with
        | tuple h =>
          rename_i vs
          obtain ⟨l, rfl⟩ := exists_list vs
          exact ⟨l, rfl, (mem_allArgs args ha l).2 h⟩
  | .node .record args, h => by
    rw [Ty.allValues] at h
    cases ha : args.allValues with
    | none => rw [ha] at h; simp at h
    | some pools =>
      rw [ha] at h
      refine .record (few_args args (by rw [ha]; rfl)) ((cartesian_isSome (allArgs_nodup args ha) fun v => ?_).1 h)
      constructor
      · rintro ⟨l, rfl, h3⟩
        exact .record ((mem_allArgs args ha l).1 h3)
      · intro h
        cases h with
        | record h =>
          rename_i vs
          obtain ⟨l, rfl⟩ := exists_list vs
          exact ⟨l, rfl, (mem_allArgs args ha l).2 h⟩
  | .node .variant _, h => by simp [Ty.allValues] at h
  | .node .function _, h => by simp [Ty.allValues] at h
  | .node (.named _) _, h => by simp [Ty.allValues] at h

theorem few_args : ∀ (args : Args), args.allValues.isSome → FewArgs args
  | .nil, _ => .nil
  | .cons n t rest, h => by
    rw [Args.allValues] at h
    cases ht : t.allValues with
    | none => rw [ht] at h; simp at h
    | some vs =>
      rw [ht] at h
      cases hr : rest.allValues with
      | none => rw [hr] at h; simp at h
      | some l => exact .cons (few_of t (by rw [ht]; rfl)) (few_args rest (by rw [hr]; rfl))

end

mutual

theorem of_few : ∀ {t : Ty}, Few t → t.allValues.isSome
  | _, .never => rfl
  | _, .unit => by simp [Ty.allValues]
  | _, .bool => by simp [Ty.allValues]
  | _, .tuple (args := args) h h' => by
    obtain ⟨pools, ha⟩ := Option.isSome_iff_exists.1 (of_fewArgs h)
    rw [Ty.allValues, ha]
    refine (cartesian_isSome (allArgs_nodup args ha) fun v => ?_).2 h'
    constructor
    · rintro ⟨l, rfl, h3⟩
      exact .tuple ((mem_allArgs args ha l).1 h3)
    · intro h
      cases h with
      | tuple h =>
        rename_i vs
        obtain ⟨l, rfl⟩ := exists_list vs
        exact ⟨l, rfl, (mem_allArgs args ha l).2 h⟩
  | _, .record (args := args) h h' => by
    obtain ⟨pools, ha⟩ := Option.isSome_iff_exists.1 (of_fewArgs h)
    rw [Ty.allValues, ha]
    refine (cartesian_isSome (allArgs_nodup args ha) fun v => ?_).2 h'
    constructor
    · rintro ⟨l, rfl, h3⟩
      exact .record ((mem_allArgs args ha l).1 h3)
    · intro h
      cases h with
      | record h =>
        rename_i vs
        obtain ⟨l, rfl⟩ := exists_list vs
        exact ⟨l, rfl, (mem_allArgs args ha l).2 h⟩

theorem of_fewArgs : ∀ {args : Args}, FewArgs args → args.allValues.isSome
  | _, .nil => rfl
  | _, .cons h h' => by
    obtain ⟨vs, hv⟩ := Option.isSome_iff_exists.1 (of_few h)
    obtain ⟨l, hl⟩ := Option.isSome_iff_exists.1 (of_fewArgs h')
    rw [Args.allValues, hv]
    simp [hl]

end

/-- C66: the types whose values are listed are those made of units, booleans, tuples and records with no more than a thousand
values in any part. -/
theorem C66_enumerable (t : Ty) : t.allValues.isSome ↔ Few t := ⟨few_of t, of_few⟩

/-! ### Accepted matches -/

mutual

/-- No record pattern has a field twice. -/
def Pat.Once : Pat → Prop
  | .tuple ps => ps.Once
  | .record fs => fs.names.Nodup ∧ fs.Once
  | _ => True

/-- The same for tuples. -/
def Pats.Once : Pats → Prop
  | .nil => True
  | .cons p ps => p.Once ∧ ps.Once

/-- The same for fields. -/
def Fields.Once : Fields → Prop
  | .nil => True
  | .cons _ p fs => p.Once ∧ fs.Once

end

mutual

/-- As types are made, the fields of records are in the order of their names, type.rs:2564-2572. -/
def Canonical : Ty → Prop
  | .node .tuple args => (∀ n ∈ args.names, n = none) ∧ CanonicalArgs args
  | .node .record args => (∃ l : List Nat, args.names = l.map some ∧ l.Pairwise (· < ·)) ∧ CanonicalArgs args
  | _ => True

/-- The same for parts. -/
def CanonicalArgs : Args → Prop
  | .nil => True
  | .cons _ t rest => Canonical t ∧ CanonicalArgs rest

end

theorem insertField_sorted (x : Nat × Val × Ty) : ∀ {l : List (Nat × Val × Ty)}, l.Pairwise (fun a b => a.1 ≤ b.1) →
    (insertField x l).Pairwise fun a b => a.1 ≤ b.1
  | [], _ => by simp [insertField]
  | y :: l, h => by
    rw [List.pairwise_cons] at h
    unfold insertField
    split
    · rename_i hxy
      refine List.pairwise_cons.2 ⟨fun z hz => ?_, List.pairwise_cons.2 h⟩
      rcases List.mem_cons.1 hz with rfl | hz
      · exact hxy
      · exact hxy.trans (h.1 z hz)
    · rename_i hxy
      refine List.pairwise_cons.2 ⟨fun z hz => ?_, insertField_sorted x h.2⟩
      rcases List.mem_cons.1 ((insertField_perm x l).mem_iff.1 hz) with rfl | hz
      · omega
      · exact h.1 z hz

theorem sortFields_sorted : ∀ l, (sortFields l).Pairwise fun a b => a.1 ≤ b.1
  | [] => .nil
  | x :: l => insertField_sorted x (sortFields_sorted l)

/-- The fields of a value of a record type. -/
theorem exists_fields : ∀ {vs : Vals} {args : Args} {names : List Nat}, HasTys vs args → args.names = names.map some →
    ∃ l : List (Nat × Val × Ty), args = toFields l ∧ vs = toVals l ∧ l.map (·.1) = names
  | _, _, names, .nil, h => ⟨[], rfl, rfl, by
      rw [Args.names] at h
      exact (List.map_eq_nil_iff.1 h.symm).symm⟩
  | _, _, names, .cons (t := t) (v := v) h1 h2, h => by
    cases names with
    | nil => simp [Args.names] at h
    | cons m names =>
      rw [Args.names, List.map_cons, List.cons.injEq] at h
      obtain ⟨l, rfl, rfl, rfl⟩ := exists_fields h2 h.2
      exact ⟨(m, v, t) :: l, by rw [h.1]; rfl, rfl, rfl⟩

theorem field_of_mem : ∀ {l : List (Nat × Val × Ty)} {n : Nat} {t : Ty} {v : Val}, field (toFields l) (toVals l) n = some (t, v) → (n, v, t) ∈ l
  | [], _, _, _, h => by simp [toFields, toVals, field] at h
  | x :: l, n, t, v, h => by
    rw [toFields, toVals, field] at h
    split at h
    · rename_i he
      cases h
      cases he
      simp
    · exact List.mem_cons_of_mem _ (field_of_mem h)

theorem canonicalArgs_mem : ∀ {l : List (Nat × Val × Ty)}, CanonicalArgs (toFields l) → ∀ x ∈ l, Canonical x.2.2
  | y :: l, h, x, hx => by
    rw [toFields, CanonicalArgs] at h
    rcases List.mem_cons.1 hx with rfl | hx
    · exact h.1
    · exact canonicalArgs_mem h.2 x hx

theorem hasTys_mem : ∀ {l : List (Nat × Val × Ty)}, HasTys (toVals l) (toFields l) → ∀ x ∈ l, HasTy x.2.1 x.2.2
  | y :: l, h, x, hx => by
    rw [toFields, toVals] at h
    cases h with
    | cons h1 h2 =>
      rcases List.mem_cons.1 hx with rfl | hx
      · exact h1
      · exact hasTys_mem h2 x hx

theorem names_nodup : ∀ {l : List (Nat × Val × Ty)}, (l.map (·.1)).Nodup → ∀ x ∈ l, ∀ y ∈ l, x.1 = y.1 → x = y := by
  intro l h x hx y hy he
  exact List.inj_on_of_nodup_map h hx hy he

mutual

theorem fits_lit : ∀ (p : Pat) {t : Ty} {v : Val}, Canonical t → p.Once → HasTy v t → p.Fits t v → p.lit = some (v, t)
  | .unit, t, v, _, _, hv, hf => by
    rw [Pat.Fits] at hf
    subst hf
    cases hv
    rfl
  | .bool b, t, v, _, _, hv, hf => by
    rw [Pat.Fits] at hf
    subst hf
    cases hv
    rfl
  | .int b, t, v, _, _, hv, hf => by
    rw [Pat.Fits] at hf
    subst hf
    cases hv
    rfl
  | .str b, t, v, _, _, hv, hf => by
    rw [Pat.Fits] at hf
    subst hf
    cases hv
    rfl
  | .tuple ps, t, v, hc, ho, hv, hf => by
    cases hv with
    | tuple hv =>
      rw [Pat.Fits] at hf
      rw [Canonical] at hc
      rw [Pat.Once] at ho
      obtain ⟨L, h1, rfl, rfl⟩ := fits_lits ps hc.1 hc.2 ho hv hf
      rw [Pat.lit, h1]
      rfl
    | _ => simp [Pat.Fits] at hf
  | .record fs, t, v, hc, ho, hv, hf => by
    cases hv with
    | record hv =>
      rw [Pat.Fits] at hf
      rw [Canonical] at hc
      rw [Pat.Once] at ho
      obtain ⟨⟨names, hn, hlt⟩, hca⟩ := hc
      obtain ⟨A, rfl, rfl, rfl⟩ := exists_fields hv hn
      have hnd : (A.map (·.1)).Nodup := hlt.imp fun h => Nat.ne_of_lt h
      obtain ⟨L, h1, h2⟩ := fits_litFields fs hv hca ho.2 hf.2
      have hLn : L.map (·.1) = fs.names := names_lit fs h1
      have hLnd : (L.map (·.1)).Nodup := by rw [hLn]; exact ho.1
      have hperm : L.Perm A := by
        rw [List.perm_ext_iff_of_nodup hLnd.of_map hnd.of_map]
        refine fun x => ⟨fun hx => h2 x hx, fun hx => ?_⟩
        obtain ⟨m, hm, he⟩ := hf.1 (some x.1) (by rw [names_toFields]; exact List.mem_map.2 ⟨x, hx, rfl⟩)
        simp only [Option.some.injEq] at he
        subst he
        rw [← hLn] at hm
        obtain ⟨y, hy, he⟩ := List.mem_map.1 hm
        rw [← names_nodup hnd y (h2 y hy) x hx he]
        exact hy
      have hsort : sortFields L = A := by
        refine ((sortFields_perm L).trans hperm).eq_of_pairwise (le := fun a b => a.1 ≤ b.1) ?_ (sortFields_sorted L) ?_
        · intro a b ha hb h3 h4
          exact names_nodup hnd a (((sortFields_perm L).trans hperm).mem_iff.1 ha) b hb (Nat.le_antisymm h3 h4)
        · exact (List.pairwise_map.1 hlt).imp fun h => Nat.le_of_lt h
      rw [Pat.lit, h1]
      simp only [Option.bind_eq_bind, Option.bind_some, recordPattern, hsort]
      rw [if_pos hnd]
    | _ => simp [Pat.Fits] at hf

theorem fits_lits : ∀ (ps : Pats) {args : Args} {vs : Vals}, (∀ n ∈ args.names, n = none) → CanonicalArgs args → ps.Once → HasTys vs args →
    ps.Fits args vs → ∃ L, ps.lit = some L ∧ vs = toVals L ∧ args = toParts L
  | .nil, _, _, _, _, _, .nil, _ => ⟨[], rfl, rfl, rfl⟩
  | .nil, _, _, _, _, _, .cons _ _, h => by simp [Pats.Fits] at h
  | .cons _ _, _, _, _, _, _, .nil, h => by simp [Pats.Fits] at h
  | .cons p ps, _, _, hn, hc, ho, .cons h1 h2, h => by
    rw [Pats.Fits] at h
    rw [CanonicalArgs] at hc
    rw [Pats.Once] at ho
    rw [Args.names, List.forall_mem_cons] at hn
    obtain ⟨L, i1, rfl, rfl⟩ := fits_lits ps hn.2 hc.2 ho.2 h2 h.2
    refine ⟨_, by rw [Pats.lit, fits_lit p hc.1 ho.1 h1 h.1, i1]; rfl, rfl, ?_⟩
    rw [hn.1]
    rfl

theorem fits_litFields : ∀ (fs : Fields) {A : List (Nat × Val × Ty)}, HasTys (toVals A) (toFields A) → CanonicalArgs (toFields A) → fs.Once →
    fs.Fits (toFields A) (toVals A) → ∃ L, fs.lit = some L ∧ ∀ x ∈ L, x ∈ A
  | .nil, _, _, _, _, _ => ⟨[], rfl, by simp⟩
  | .cons n p fs, A, hv, hc, ho, hf => by
    rw [Fields.Fits] at hf
    rw [Fields.Once] at ho
    obtain ⟨⟨t, v, h1, h2⟩, h3⟩ := hf
    obtain ⟨L, i1, i2⟩ := fits_litFields fs hv hc ho.2 h3
    have hm := field_of_mem h1
    refine ⟨_, by rw [Fields.lit, fits_lit p (canonicalArgs_mem hc _ hm) ho.1 (hasTys_mem hv _ hm) h2, i1]; rfl, fun x hx => ?_⟩
    rcases List.mem_cons.1 hx with rfl | hx
    · exact hm
    · exact i2 x hx

end

theorem exists_lits {α} {t : Ty} : ∀ (arms : List (Pat × α)), (∀ x ∈ arms, ∃ l, x.1.lit = some (l, t)) →
    ∃ lits, List.Forall₂ (fun a x => a.1.lit = some x) arms lits ∧ ∀ x ∈ lits, x.2 = t
  | [], _ => ⟨[], .nil, by simp⟩
  | a :: arms, h => by
    obtain ⟨l, hl⟩ := h a (by simp)
    obtain ⟨lits, h1, h2⟩ := exists_lits arms fun x hx => h x (by simp [hx])
    exact ⟨(l, t) :: lits, .cons hl h1, by simpa using h2⟩

/-- C66: a match on literals is accepted if all patterns fit values of the type, no two of them the same one, and there is a default or
the values of the type are few and all of them fit a pattern. -/
theorem C66_accepts {α} (hS : Tidy S) (pick : Nat → Nat → Bool) (t : Ty) (ht : t.Sorted S) (hc : Canonical t)
    (arms : List (Pat × α)) (hne : arms ≠ []) (harms : ∀ x ∈ arms, x.1.Once ∧ ∃ v, HasTy v t ∧ x.1.Fits t v)
    (hdist : arms.Pairwise fun a b => ∀ v, HasTy v t → ¬ (a.1.Fits t v ∧ b.1.Fits t v)) (default : Option α)
    (hall : default = none → Few t ∧ ∀ v, HasTy v t → ∃ x ∈ arms, x.1.Fits t v) :
    ∃ alts d, compile pick t arms default = some (.ok (alts, d)) := by
  have hlit : ∀ x ∈ arms, ∃ l, x.1.lit = some (l, t) := fun x hx => by
    obtain ⟨h1, v, h2, h3⟩ := harms x hx
    exact ⟨v, fits_lit x.1 hc h1 h2 h3⟩
  obtain ⟨lits, hf, hT⟩ := exists_lits arms hlit
  have htt : t.NoNever ∧ ∀ w, t.contains w = false := by
    obtain ⟨x, hx⟩ := List.exists_mem_of_ne_nil arms hne
    obtain ⟨l, hl⟩ := hlit x hx
    exact (lit_typed x.1 hl).2.2
  have hne' : lits ≠ [] := by
    rintro rfl
    cases hf
    exact hne rfl
  have hnd : (lits.map (·.1)).Nodup := by
    have : ∀ {arms : List (Pat × α)} {lits : List (Val × Ty)}, List.Forall₂ (fun a x => a.1.lit = some x) arms lits →
        (∀ x ∈ lits, x.2 = t) → (arms.Pairwise fun a b => ∀ v, HasTy v t → ¬ (a.1.Fits t v ∧ b.1.Fits t v)) →
        (lits.map (·.1)).Nodup := by
      intro arms lits hf
      induction hf with
      | nil => simp
      | @cons a x arms lits h1 h2 ih =>
        intro hT hd
        rw [List.pairwise_cons] at hd
        rw [List.map_cons, List.nodup_cons]
        refine ⟨fun hm => ?_, ih (fun x hx => hT x (by simp [hx])) hd.2⟩
        obtain ⟨y, hy, he⟩ := List.mem_map.1 hm
        obtain ⟨b, hb, hbl⟩ := forall₂_mem h2 y hy
        have hx2 := hT x (by simp)
        have hy2 := hT y (by simp [hy])
        obtain ⟨lx, Tx⟩ := x
        obtain ⟨ly, Ty'⟩ := y
        dsimp only at hx2 hy2 he h1 hbl
        subst hx2 he hy2
        have hv := (lit_typed _ h1).1
        exact hd.1 b hb ly hv ⟨(fits_iff _ h1 hv).2 rfl, (fits_iff _ hbl hv).2 rfl⟩
    exact this hf hT hdist
  have hin : ∀ (tab : Table), InTable tab t := fun tab w hw => by rw [htt.2 w] at hw; cases hw
  have hin0 : ∀ tab : Table, tab.length = 1 → InTable tab (.var 0) := fun tab hl w hw => by
    simp [Ty.contains] at hw; omega
  have hs0 : (Ty.var 0).Sorted S := by rw [Ty.Sorted]; trivial
  have hρ0 : Respects (fresh 1) fun _ => t := fun v u hu => by
    unfold fresh at hu
    have := List.mem_of_getElem? hu
    simp at this
  have hgood : ∀ e ∈ lits.map fun l => (l.2, Ty.var 0), e.1.subst (fun _ => t) = e.2.subst fun _ => t := fun e he => by
    obtain ⟨x, hx, rfl⟩ := List.mem_map.1 he
    dsimp only
    rw [hT x hx, Ty.subst, subst_closed htt.2]
  obtain ⟨r, hr, hp⟩ := solve_spec (pick := pick) hS.named (lits.map fun l => (l.2, .var 0)) (fresh 1) Ty.var (tri_fresh 1)
    (sorted_fresh 1) (fun e he => by
      obtain ⟨x, hx, rfl⟩ := List.mem_map.1 he
      dsimp only
      rw [hT x hx]
      exact ⟨hin _, hin0 _ (by simp [fresh]), ht, hs0⟩)
  cases r with
  | error e => exact absurd hgood (hp _ hρ0)
  | ok tab =>
    obtain ⟨p1, ⟨θ, p2⟩, p3, p4, p5, p6⟩ := hp
    have hlen : tab.length = 1 := by rw [p1]; simp [fresh]
    have hnn : NoNeverTable tab := solve_noNever _ _ _ _ hr (noNever_fresh 1) (fun e he => by
      obtain ⟨x, hx, rfl⟩ := List.mem_map.1 he
      dsimp only
      rw [hT x hx]
      exact ⟨htt.1, by rw [Ty.NoNever]; trivial⟩)
    have hθ : θ 0 = t := by
      obtain ⟨x, hx⟩ := List.exists_mem_of_ne_nil lits hne'
      have ha := (p5 θ p2.respects).2 (x.2, .var 0) (List.mem_map.2 ⟨x, hx, rfl⟩)
      dsimp only at ha
      rw [hT x hx, subst_closed htt.2, Ty.subst] at ha
      exact ((sameShape hS ha ht (p2.sorted p3 0)).eq htt.1 (tri_noNever p2 hnn 0)).symm
    have hnorm : Unify.normalize tab (.var 0) = some t := by
      rw [← hθ]
      exact p2.normalize (hin0 _ hlen)
    have hvalue : ∃ tab', Unify.solve pick tab [(t, .var 0)] = some (.ok tab') := by
      obtain ⟨r, hr', hq⟩ := solve_spec (pick := pick) hS.named [(t, .var 0)] tab θ p2 p3 (fun e he => by
        simp only [List.mem_singleton] at he
        subst he
        exact ⟨hin _, hin0 _ hlen, ht, hs0⟩)
      cases r with
      | ok tab' => exact ⟨tab', hr'⟩
      | error e =>
        refine absurd ?_ (hq (fun _ => t) (p6 _ hρ0 hgood))
        intro e he
        simp only [List.mem_singleton] at he
        subst he
        dsimp only
        rw [Ty.subst, subst_closed htt.2]
    obtain ⟨tab', hr'⟩ := hvalue
    have hcheck : check pick t lits default.isSome = some (.ok ()) := by
      unfold check
      rw [if_neg (by simpa using hnd), hr]
      dsimp only
      rw [hr', hnorm]
      cases default with
      | some d => simp
      | none =>
        obtain ⟨h1, h2⟩ := hall rfl
        obtain ⟨vs, hvs⟩ := Option.isSome_iff_exists.1 ((C66_enumerable t).2 h1)
        simp only [Option.isSome_none, Bool.false_eq_true, if_false, hvs]
        rw [if_pos]
        rw [List.all_eq_true]
        intro v hv
        have hv' := (mem_allValues t hvs v).1 hv
        obtain ⟨x, hx, hfx⟩ := h2 v hv'
        obtain ⟨l, hl⟩ := hlit x hx
        have := (fits_iff _ hl hv').1 hfx
        subst this
        have hmem : ∀ {arms : List (Pat × α)} {lits : List (Val × Ty)}, List.Forall₂ (fun a x => a.1.lit = some x) arms lits → x ∈ arms →
            (v, t) ∈ lits := by
          intro arms lits hf
          induction hf with
          | nil => simp
          | @cons a y arms lits h1 h2 ih =>
            intro hm
            rcases List.mem_cons.1 hm with rfl | hm
            · rw [hl] at h1
              cases h1
              simp
            · exact List.mem_cons_of_mem _ (ih hm)
        simp only [List.contains_eq_mem, decide_eq_true_eq]
        exact List.mem_map.2 ⟨_, hmem hf hx, rfl⟩
    unfold compile
    rw [forall₂_mapM hf]
    dsimp only
    rw [hcheck]
    cases default with
    | some d => exact ⟨_, d, rfl⟩
    | none =>
      rcases List.eq_nil_or_concat' arms with rfl | ⟨init, last, rfl⟩
      · exact absurd rfl hne
      · rcases List.eq_nil_or_concat' lits with rfl | ⟨linit, llast, rfl⟩
        · exact absurd rfl hne'
        · have hlen : init.length = linit.length := by simpa using hf.length_eq
          have hz : ((linit ++ [llast]).map (·.1)).zip ((init ++ [last]).map (·.2)) =
              (linit.map (·.1)).zip (init.map (·.2)) ++ [(llast.1, last.2)] := by
            rw [List.map_append, List.map_append, List.zip_append (by simp [hlen])]
            rfl
          rw [hz, lower, List.getLast?_concat, List.dropLast_concat]
          exact ⟨_, _, rfl⟩

/-! ### Records with other fields, and fields twice -/

/-- The pattern `{a: b}`. -/
def single (b : Bool) : Pat := .record (.cons 0 (.bool b) .nil)

/-- The type `{a: bool, b: bool}`. -/
def pair : Ty := .node .record (.cons (some 0) boolTy (.cons (some 1) boolTy .nil))

/-- C66 fails: `match {a: true, b: false} { {a: true} => 1, {a: false} => 2 }` is accepted as complete, and panics. -/
theorem C66_fields_violated (pick : Nat → Nat → Bool) :
    ∃ alts d, compile pick pair [(single true, 1), (single false, 2)] none = some (.ok (alts, d)) ∧
      HasTy (.tuple (.cons (.bool true) (.cons (.bool false) .nil))) pair ∧
      select d alts (.tuple (.cons (.bool true) (.cons (.bool false) .nil))) = none := by
  refine ⟨[(.tuple (.cons (.bool true) .nil), 1)], 2, ?_, .record (.cons (.bool _) (.cons (.bool _) .nil)), by decide⟩
  have h1 : (single true).lit = some (.tuple (.cons (.bool true) .nil), .node .record (.cons (some 0) boolTy .nil)) := by decide
  have h2 : (single false).lit = some (.tuple (.cons (.bool false) .nil), .node .record (.cons (some 0) boolTy .nil)) := by decide
  simp [compile, List.mapM_cons, h1, h2, check, pair, boolTy, Unify.solve, unify, Unify.normalize, normalizeArgs, fresh, unifyArgs, checksLength,
    assertsLength, checksNames, swaps, Args.length, unifyVariable, unifyVariables, Unify.bind, Ty.contains, Args.contains, List.replicate,
    Ty.allValues, Args.allValues, cartesian, product, ofList, lower]

/-- C66 fails: the compiler panics on the pattern `{a: true, a: false}`. -/
theorem C66_twice_violated {α} (pick : Nat → Nat → Bool) (t : Ty) (a : α) (rest : List (Pat × α)) (default : Option α) :
    compile pick t ((.record (.cons 0 (.bool true) (.cons 0 (.bool false) .nil)), a) :: rest) default = none := by
  have h : (Pat.record (.cons 0 (.bool true) (.cons 0 (.bool false) .nil))).lit = none := by decide
  unfold compile
  rw [List.mapM_cons, h]
  rfl

/-! ### Examples -/

/-- The type `{b: bool, c: ()}`. -/
def mixed : Ty := .node .record (.cons (some 1) boolTy (.cons (some 2) unitTy .nil))

/-- `match … { {c: (), b: true} => 10, {b: false, c: ()} => 20 }` -/
def mixedArms : List (Pat × Nat) :=
  [(.record (.cons 2 .unit (.cons 1 (.bool true) .nil)), 10), (.record (.cons 1 (.bool false) (.cons 2 .unit .nil)), 20)]

theorem mixed_hasTy {v : Val} (h : HasTy v mixed) : ∃ b, v = .tuple (.cons (.bool b) (.cons .unit .nil)) := by
  have := (mem_allValues mixed (vs := [.tuple (.cons (.bool false) (.cons .unit .nil)), .tuple (.cons (.bool true) (.cons .unit .nil))])
    (by decide) v).2 h
  simp at this
  rcases this with rfl | rfl
  · exact ⟨_, rfl⟩
  · exact ⟨_, rfl⟩

example (pick : Nat → Nat → Bool) (b : Bool) : ∃ alts d, compile pick mixed mixedArms none = some (.ok (alts, d)) ∧
    ∃ a, select d alts (.tuple (.cons (.bool b) (.cons .unit .nil))) = some a ∧
      Chosen mixed (.tuple (.cons (.bool b) (.cons .unit .nil))) mixedArms none a := by
  have hs : mixed.Sorted demoSorts := by
    simp [mixed, boolTy, unitTy, Ty.Sorted, Args.Sorted, Args.names, demoSorts]
  have hv : ∀ b, HasTy (.tuple (.cons (.bool b) (.cons .unit .nil))) mixed := fun b => .record (.cons (.bool b) (.cons .unit .nil))
  have hfits : ∀ c, (Pat.record (.cons 2 .unit (.cons 1 (.bool true) .nil))).Fits mixed (.tuple (.cons (.bool c) (.cons .unit .nil))) ↔ c = true := by
    intro c
    simp [mixed, Pat.Fits, Args.names, Fields.names, Fields.Fits, field, boolTy, unitTy]
  have hfits' : ∀ c, (Pat.record (.cons 1 (.bool false) (.cons 2 .unit .nil))).Fits mixed (.tuple (.cons (.bool c) (.cons .unit .nil))) ↔ c = false := by
    intro c
    simp [mixed, Pat.Fits, Args.names, Fields.names, Fields.Fits, field, boolTy, unitTy]
  obtain ⟨alts, d, h⟩ := C66_accepts demo_tidy pick mixed hs
    (by
      simp only [mixed, boolTy, unitTy, Canonical, CanonicalArgs, and_true, Args.names]
      exact ⟨[1, 2], rfl, by decide⟩)
    mixedArms (by simp [mixedArms])
    (by
      intro x hx
      simp only [mixedArms, List.mem_cons, List.not_mem_nil, or_false] at hx
      rcases hx with rfl | rfl
      · exact ⟨by simp [Pat.Once, Fields.names, Fields.Once], _, hv true, (hfits true).2 rfl⟩
      · exact ⟨by simp [Pat.Once, Fields.names, Fields.Once], _, hv false, (hfits' false).2 rfl⟩)
    (by
      simp only [mixedArms, List.pairwise_cons, List.mem_cons, List.not_mem_nil, or_false, forall_eq, List.Pairwise.nil, and_true,
        false_implies, implies_true]
      intro v hv
      obtain ⟨c, rfl⟩ := mixed_hasTy hv
      rw [hfits, hfits']
      cases c <;> simp)
    none (fun _ => ⟨(C66_enumerable mixed).1 (by decide), fun v hv => by
      obtain ⟨c, rfl⟩ := mixed_hasTy hv
      cases c
      · exact ⟨_, by simp [mixedArms]; right; rfl, (hfits' false).2 rfl⟩
      · exact ⟨_, by simp [mixedArms]; left; rfl, (hfits true).2 rfl⟩⟩)
  refine ⟨alts, d, h, C66_chosen_partial demo_tidy pick mixed hs (fun w => by simp [mixed, boolTy, unitTy, Ty.contains, Args.contains]) mixedArms
    (by simp [mixedArms]) ?_ none alts d h _ (hv b)⟩
  intro x hx l T hl
  simp only [mixedArms, List.mem_cons, List.not_mem_nil, or_false] at hx
  have hT : T = mixed := by
    rcases hx with rfl | rfl
    · rw [fits_lit _ (t := mixed) (by
        simp only [mixed, boolTy, unitTy, Canonical, CanonicalArgs, and_true, Args.names]
        exact ⟨[1, 2], rfl, by decide⟩) (by simp [Pat.Once, Fields.names, Fields.Once]) (hv true) ((hfits true).2 rfl)] at hl
      cases hl
      rfl
    · rw [fits_lit _ (t := mixed) (by
        simp only [mixed, boolTy, unitTy, Canonical, CanonicalArgs, and_true, Args.names]
        exact ⟨[1, 2], rfl, by decide⟩) (by simp [Pat.Once, Fields.names, Fields.Once]) (hv false) ((hfits' false).2 rfl)] at hl
      cases hl
      rfl
  rw [hT]
  exact hs

end Ferlium.Match
