import Verif.Proofs.InternStore
import Mathlib.Data.String.Basic
import Mathlib.Data.List.Nodup

/-!
# C88: equal types have one handle

Types are compared by their handles in a table (type.rs 1303-1312).  A handle must therefore stand
for one type, for ever, and equal types must have the same handle, no matter when, in which batch and
under which local numbers they were stored, recursive or not.
-/

namespace Ferlium.Intern

/-! ## Specification -/

/-- Tables built by storing batches, in orders of hash sets that may change every time. -/
inductive Built (eff : Nat → List (List Nat)) (le : Kind → Kind → Bool) : Universe → Prop
  | new : Built eff le .new
  | store {U U' : Universe} {kinds : List Kind} {types : List Ref} {order : List Nat → List Nat} :
    Built eff le U → (∀ l, (order l).Perm l) → Batch eff U (kinds.map Kind.normalize) →
    insertTypes order le U kinds = some (U', types) → Built eff le U'

/-- Tables after storing more batches. -/
inductive Later (eff : Nat → List (List Nat)) (le : Kind → Kind → Bool) : Universe → Universe → Prop
  | now {U : Universe} : Later eff le U U
  | store {U U' U'' : Universe} {kinds : List Kind} {types : List Ref} {order : List Nat → List Nat} :
    Later eff le U U' → (∀ l, (order l).Perm l) → Batch eff U' (kinds.map Kind.normalize) →
    insertTypes order le U' kinds = some (U'', types) → Later eff le U U''

/-! ## Theorems -/

variable {eff : Nat → List (List Nat)} {le : Kind → Kind → Bool}

theorem Built.inv {U : Universe} (h : Built eff le U) : Inv eff U := by
  induction h with
  | new => exact Inv.new eff
  | store _ ho hb hi ih =>
    obtain ⟨U', types, h1, h2, _⟩ := insertNormal_spec ho le ih hb.good
    have := hi.symm.trans h1
    simp only [Option.some.injEq, Prod.mk.injEq] at this
    rw [this.1]; exact h2

/-- Storing a batch succeeds; the handle of every type of the batch exists and stands for that type. -/
theorem C88_stored_partial {order : List Nat → List Nat} (ho : ∀ l, (order l).Perm l) {U : Universe}
    (hU : Built eff le U) {kinds : List Kind} (hb : Batch eff U (kinds.map Kind.normalize)) :
    ∃ U' types, insertTypes order le U kinds = some (U', types) ∧ Built eff le U' ∧
      types.length = kinds.length ∧
      ∀ (i : Nat) r, types[i]? = some r → (∃ k, U'.look r = some k) ∧
        Same U'.look (batch U (kinds.map Kind.normalize)) r (.loc i) := by
  obtain ⟨U', types, h1, _, _, h4, h5⟩ := insertNormal_spec ho le hU.inv hb.good
  exact ⟨U', types, h1, .store hU ho hb h1, by simpa using h4, h5⟩

/-- Handles keep their type when more types are stored. -/
theorem C88_kept_partial {U U' : Universe} (hU : Built eff le U) (h : Later eff le U U') :
    Built eff le U' ∧ ∀ r k, U.look r = some k → U'.look r = some k ∧ Same U.look U'.look r r := by
  have key : Built eff le U' ∧ Ext U.look U'.look := by
    induction h with
    | now => exact ⟨hU, fun _ _ h => h⟩
    | store _ ho hb hi ih =>
      obtain ⟨U2, types, h1, _, h3, _⟩ := insertNormal_spec ho le ih.1.inv hb.good
      have := hi.symm.trans h1
      simp only [Option.some.injEq, Prod.mk.injEq] at this
      refine ⟨.store ih.1 ho hb hi, fun r k hk => ?_⟩
      rw [this.1]; exact h3 _ _ (ih.2 _ _ hk)
  exact ⟨key.1, fun r k hk => ⟨key.2 _ _ hk, key.2.same hU.inv.closed hk⟩⟩

/-- Two handles are equal exactly when they stand for the same type. -/
theorem C88_canonical_partial {U : Universe} (hU : Built eff le U) {r r' : Ref} {k k' : Kind}
    (hr : U.look r = some k) (hr' : U.look r' = some k') : r = r' ↔ Same U.look U.look r r' :=
  ⟨fun h => h ▸ Same.refl _ _, hU.inv.canon r r' k k' hr hr'⟩

/-- Types of two batches get the same handle exactly when they are the same type, whatever was stored
before and in between. -/
theorem C88_equal_partial {order order' : List Nat → List Nat} (ho : ∀ l, (order l).Perm l)
    (ho' : ∀ l, (order' l).Perm l) {U U₁ U₂ U₃ : Universe} {kinds kinds' : List Kind}
    {types types' : List Ref} (hU : Built eff le U) (hb : Batch eff U (kinds.map Kind.normalize))
    (hi : insertTypes order le U kinds = some (U₁, types)) (hl : Later eff le U₁ U₂)
    (hb' : Batch eff U₂ (kinds'.map Kind.normalize))
    (hi' : insertTypes order' le U₂ kinds' = some (U₃, types')) {i j : Nat} {r r' : Ref}
    (hr : types[i]? = some r) (hr' : types'[j]? = some r') :
    r = r' ↔ Same (batch U (kinds.map Kind.normalize)) (batch U₂ (kinds'.map Kind.normalize))
      (.loc i) (.loc j) := by
  obtain ⟨_, _, h1, h2, _, h4⟩ := C88_stored_partial ho hU hb
  rw [hi] at h1; cases h1
  obtain ⟨h5, h6⟩ := C88_kept_partial h2 hl
  obtain ⟨_, _, h7, h8, _, h9⟩ := C88_stored_partial ho' h5 hb'
  rw [hi'] at h7; cases h7
  obtain ⟨⟨k, hk⟩, hs⟩ := h4 i r hr
  obtain ⟨⟨k', hk'⟩, hs'⟩ := h9 j r' hr'
  obtain ⟨hk2, hs2⟩ := h6 r k hk
  obtain ⟨hk3, hs3⟩ := (C88_kept_partial h5 (.store .now ho' hb' hi')).2 r k hk2
  rw [C88_canonical_partial h8 hk3 hk']
  have hrs : Same U₃.look (batch U (kinds.map Kind.normalize)) r (.loc i) :=
    ((hs2.trans hs3).symm).trans hs
  exact ⟨fun h => (hrs.symm.trans h).trans hs', fun h => (hrs.trans h).trans hs'.symm⟩

/-! ### Order of fields -/

theorem sortFields_perm {names names' : List String} {kids kids' : List Ref}
    (hp : (names.zip kids).Perm (names'.zip kids')) (hnd : ((names.zip kids).map (·.1)).Nodup) :
    sortFields names kids = sortFields names' kids' := by
  refine List.Perm.eq_of_pairwise (le := fun x y : String × Ref => decide (x.1 ≤ y.1) = true) ?_
    (sortBy_pairwise names_total names_trans _) (sortBy_pairwise names_total names_trans _)
    ((sortBy_perm _ _).trans (hp.trans (sortBy_perm _ _).symm))
  intro a b ha hb h1 h2
  have ha' := (sortBy_perm _ _).mem_iff.1 ha
  have hb' := hp.mem_iff.2 ((sortBy_perm _ _).mem_iff.1 hb)
  simp only [decide_eq_true_eq] at h1 h2
  exact List.inj_on_of_nodup_map hnd ha' hb' (le_antisymm h1 h2)

/-- The fields of records, and the alternatives of variants, may be given in any order. -/
theorem C88_fields {names names' : List String} {kids kids' : List Ref}
    (hp : (names.zip kids).Perm (names'.zip kids')) (hnd : ((names.zip kids).map (·.1)).Nodup) :
    Kind.normalize ⟨.record names, kids⟩ = Kind.normalize ⟨.record names', kids'⟩ ∧
      Kind.normalize ⟨.variant names, kids⟩ = Kind.normalize ⟨.variant names', kids'⟩ := by
  simp only [Kind.normalize, sortFields_perm hp hnd, and_self]

example : Kind.normalize ⟨.record ["y", "x"], [.glob 0 1, .glob 0 0]⟩ =
    ⟨.record ["x", "y"], [.glob 0 0, .glob 0 1]⟩ := by decide +kernel

/-! ## Counterexamples -/

/-- The effect arguments of named types are not compared when a recursive group is looked up: two types
that differ in their effects get one handle. -/
theorem C88_effects_violated (order : List Nat → List Nat) (le : Kind → Kind → Bool) :
    ∃ U₁ U₂ r, insertTypes order le .new [⟨.named 0 [[]], [.loc 0]⟩] = some (U₁, [r]) ∧
      insertTypes order le U₁ [⟨.named 0 [[1]], [.loc 0]⟩] = some (U₂, [r]) ∧
      ¬ Same (batch .new [⟨.named 0 [[]], [.loc 0]⟩]) (batch U₁ [⟨.named 0 [[1]], [.loc 0]⟩]) (.loc 0) (.loc 0) := by
  refine ⟨_, _, _, rfl, rfl, fun h => ?_⟩
  have := h 1
  simp [Intern.unfold, batch] at this

open Graph in
/-- A graph of definitions that all use each other has one component. -/
theorem one_component {kinds : List Kind} (hwf : WF (kinds.map neighbours)) (hne : kinds ≠ [])
    (hm : ∀ i j, i < kinds.length → j < kinds.length → Reach (kinds.map neighbours) i j)
    {order : List Nat → List Nat} (ho : ∀ l, (order l).Perm l) :
    ∃ c, componentsCalleesFirst order (kinds.map neighbours) = some [c] ∧
      c.Perm (List.range kinds.length) := by
  obtain ⟨r, hr, hperm, hclass, _⟩ := C23_callees_first _ hwf order ho
  have hperm' : r.flatten.Perm (List.range kinds.length) := by simpa using hperm
  have hlt : ∀ c ∈ r, ∀ i ∈ c, i < kinds.length := fun c hc i hi =>
    List.mem_range.1 (hperm'.mem_iff.1 (List.mem_flatten.2 ⟨c, hc, hi⟩))
  match r with
  | [] =>
    exfalso
    have := hperm'.length_eq
    simp only [List.flatten_nil, List.length_nil, List.length_range] at this
    exact hne (List.length_eq_zero_iff.1 this.symm)
  | [c] => exact ⟨c, hr, by simpa using hperm'⟩
  | c :: d :: rest =>
    exfalso
    obtain ⟨x, hx⟩ := List.exists_mem_of_ne_nil _ (hclass c (by simp)).1
    obtain ⟨y, hy⟩ := List.exists_mem_of_ne_nil _ (hclass d (by simp)).1
    have hxl := hlt c (by simp) x hx
    have hyl := hlt d (by simp) y hy
    have hyc : y ∈ c := ((hclass c (by simp)).2 x hx y).2 ⟨hm x y hxl hyl, hm y x hyl hxl⟩
    have hnd := hperm'.nodup_iff.2 List.nodup_range
    rw [List.flatten_cons] at hnd
    exact (List.nodup_append.1 hnd).2.2 y hyc y (by simp [hy]) rfl

/-- `local_cmp` on the kinds of the examples (type.rs 2501-2518, 2539-2551): by constructor, then by the number of
inner types. -/
def exLe (a b : Kind) : Bool :=
  let rank : Kind → Nat := fun k =>
    match k.head with
    | .native _ => 1
    | .variant _ => 3
    | .tuple => 4
    | _ => 9
  rank a < rank b || (rank a == rank b && a.kids.length ≤ b.kids.length)

/-- `type Expr = Add(Expr, Expr) | If(Expr, Expr, Expr) | Mul(Expr, Expr)`. -/
def exExpr : List Kind :=
  [⟨.variant ["Add", "If", "Mul"], [.loc 1, .loc 2, .loc 3]⟩, ⟨.tuple, [.loc 0, .loc 0]⟩,
   ⟨.tuple, [.loc 0, .loc 0, .loc 0]⟩, ⟨.tuple, [.loc 0, .loc 0]⟩]

/-- `type Expr = Add(Expr, Expr) | Mul(Expr, Expr)`. -/
def exExpr2 : List Kind :=
  [⟨.variant ["Add", "Mul"], [.loc 1, .loc 2]⟩, ⟨.tuple, [.loc 0, .loc 0]⟩, ⟨.tuple, [.loc 0, .loc 0]⟩]

/-- The checks of the two theorems below, for one order of the component. -/
def exDangling (kinds : List Kind) (c : List Nat) : Bool :=
  match insertSccs exLe kinds .new (List.replicate kinds.length none) [c] with
  | some (U', rs) => rs.any fun o => match o with
    | some r => (U'.look r).isNone
    | none => false
  | none => false

/-- Some type has another number of inner types than it was given. -/
def exWrong (kinds : List Kind) (c : List Nat) : Bool :=
  match insertSccs exLe kinds .new (List.replicate kinds.length none) [c] with
  | some (U', rs) => (List.range kinds.length).any fun i => match rs[i]?, kinds[i]? with
    | some (some r), some k => match U'.look r with
      | some k' => k'.kids.length != k.kids.length
      | none => false
    | _, _ => false
  | none => false

theorem exExpr2_normal : exExpr2.map Kind.normalize = exExpr2 := by decide +kernel
theorem exExpr_normal : exExpr.map Kind.normalize = exExpr := by decide +kernel

theorem perm_range {n : Nat} {c : List Nat} (h : c.Perm (List.range n)) : c ∈ (List.range n).permutations' :=
  List.mem_permutations'.2 h

open Graph in
theorem ex_reach {kinds : List Kind} (h0 : ∀ i, i < kinds.length → Reach (kinds.map neighbours) i 0)
    (h1 : ∀ i, i < kinds.length → Reach (kinds.map neighbours) 0 i) (i j : Nat) (hi : i < kinds.length)
    (hj : j < kinds.length) : Reach (kinds.map neighbours) i j :=
  (h0 i hi).trans (h1 j hj)

open Graph in
theorem ex_wf {kinds : List Kind}
    (h : ∀ l ∈ kinds.map neighbours, ∀ j ∈ l, j < (kinds.map neighbours).length) :
    WF (kinds.map neighbours) := by
  rintro i j ⟨l, hl, hj⟩
  exact h l (List.mem_of_getElem? hl) j hj

open Graph in
theorem exExpr2_component {order : List Nat → List Nat} (ho : ∀ l, (order l).Perm l) :
    ∃ c, componentsCalleesFirst order (exExpr2.map neighbours) = some [c] ∧ c.Perm (List.range 3) := by
  refine one_component (ex_wf (by decide +kernel)) (by decide +kernel) (ex_reach ?_ ?_) ho
  · intro i hi
    match i, hi with
    | 0, _ => exact .refl
    | 1, _ => exact .single ⟨[0, 0], rfl, by simp⟩
    | 2, _ => exact .single ⟨[0, 0], rfl, by simp⟩
  · intro i hi
    match i, hi with
    | 0, _ => exact .refl
    | 1, _ => exact .single ⟨[1, 2], rfl, by simp⟩
    | 2, _ => exact .single ⟨[1, 2], rfl, by simp⟩

open Graph in
theorem exExpr_component {order : List Nat → List Nat} (ho : ∀ l, (order l).Perm l) :
    ∃ c, componentsCalleesFirst order (exExpr.map neighbours) = some [c] ∧ c.Perm (List.range 4) := by
  refine one_component (ex_wf (by decide +kernel)) (by decide +kernel) (ex_reach ?_ ?_) ho
  · intro i hi
    match i, hi with
    | 0, _ => exact .refl
    | 1, _ => exact .single ⟨[0, 0], rfl, by simp⟩
    | 2, _ => exact .single ⟨[0, 0, 0], rfl, by simp⟩
    | 3, _ => exact .single ⟨[0, 0], rfl, by simp⟩
  · intro i hi
    match i, hi with
    | 0, _ => exact .refl
    | 1, _ => exact .single ⟨[1, 2, 3], rfl, by simp⟩
    | 2, _ => exact .single ⟨[1, 2, 3], rfl, by simp⟩
    | 3, _ => exact .single ⟨[1, 2, 3], rfl, by simp⟩

/-- Two alternatives with the same payload, in a recursive type: a handle that stands for nothing.
Looking at it is a panic of the compiler (type.rs 3464-3471). -/
theorem C88_dangling_violated (order : List Nat → List Nat) (ho : ∀ l, (order l).Perm l) :
    ∃ U' types r, insertTypes order exLe .new exExpr2 = some (U', types) ∧ r ∈ types ∧ U'.look r = none := by
  obtain ⟨c, hc, hp⟩ := exExpr2_component ho
  have hall : ∀ c ∈ (List.range 3).permutations', exDangling exExpr2 c = true := by decide +kernel
  have h := hall c (perm_range hp)
  unfold exDangling at h
  split at h
  · next U' rs hs =>
    simp only [List.any_eq_true] at h
    obtain ⟨o, ho, hd⟩ := h
    split at hd
    · next r =>
      refine ⟨U', rs.map (·.getD (.loc 0)), r, ?_, List.mem_map.2 ⟨_, ho, rfl⟩, by simpa using hd⟩
      rw [insertTypes, exExpr2_normal, insertNormal]
      have hn : allPlain exExpr2 = none := by decide +kernel
      have hl : ¬ exExpr2.length = 1 := by decide
      rw [hn]
      simp only [if_neg hl, hc, Option.bind_some, hs, Option.map_some]
    · cases hd
  · cases h

/-- … and, with one more alternative, a handle that stands for the type of another payload. -/
theorem C88_confused_violated (order : List Nat → List Nat) (ho : ∀ l, (order l).Perm l) :
    ∃ (U' : Universe) (types : List Ref) (i : Nat) (r : Ref) (k : Kind),
      insertTypes order exLe .new exExpr = some (U', types) ∧
      types[i]? = some r ∧ U'.look r = some k ∧ ¬ Same U'.look (batch .new exExpr) r (.loc i) := by
  obtain ⟨c, hc, hp⟩ := exExpr_component ho
  have hall : ∀ c ∈ (List.range 4).permutations', exWrong exExpr c = true := by decide +kernel
  have h := hall c (perm_range hp)
  unfold exWrong at h
  split at h
  · next U' rs hs =>
    simp only [List.any_eq_true] at h
    obtain ⟨i, _, hd⟩ := h
    split at hd
    · next r k hr hk =>
      split at hd
      · next k' hk' =>
        refine ⟨U', rs.map (·.getD (.loc 0)), i, r, k', ?_, by simp [hr], hk', fun hsame => ?_⟩
        · rw [insertTypes, exExpr_normal, insertNormal]
          have hn : allPlain exExpr = none := by decide +kernel
          have hl : ¬ exExpr.length = 1 := by decide
          rw [hn]
          simp only [if_neg hl, hc, Option.bind_some, hs, Option.map_some]
        · obtain ⟨k2, h1, _, h3⟩ := hsame.kids hk'
          have h2 : exExpr[i]? = some k2 := h1
          rw [hk] at h2; cases h2
          have := h3.length_eq
          simp [this] at hd
      · cases hd
    · cases hd
  · cases h

/-- `type A = Leaf | N(B); type B = Leaf | N(A)`, with `()` stored before. -/
def exTwice : List Kind :=
  [⟨.variant ["Leaf", "N"], [.glob 0 0, .loc 1]⟩, ⟨.variant ["Leaf", "N"], [.glob 0 0, .loc 0]⟩]

/-- The table with `()`. -/
def exUnit : Universe := ⟨[⟨.tuple, []⟩], [], []⟩

example : insertTypes id exLe .new [⟨.tuple, []⟩] = some (exUnit, [.glob 0 0]) := by decide +kernel

open Graph in
/-- A recursive type that is written out twice gets two handles, although both unfold to the same type. -/
theorem C88_twice_violated (order : List Nat → List Nat) (ho : ∀ l, (order l).Perm l) :
    ∃ U' r r', insertTypes order exLe exUnit exTwice = some (U', [r, r']) ∧ r ≠ r' ∧
      Same U'.look U'.look r r' := by
  have hcomp : ∃ c, componentsCalleesFirst order (exTwice.map neighbours) = some [c] ∧ c.Perm (List.range 2) := by
    refine one_component (ex_wf (by decide +kernel)) (by decide +kernel) (ex_reach ?_ ?_) ho
    · intro i hi
      match i, hi with
      | 0, _ => exact .refl
      | 1, _ => exact .single ⟨[0], rfl, by simp⟩
    · intro i hi
      match i, hi with
      | 0, _ => exact .refl
      | 1, _ => exact .single ⟨[1], rfl, by simp⟩
  obtain ⟨c, hc, hp⟩ := hcomp
  let W : List Kind := [⟨.variant ["Leaf", "N"], [.glob 0 0, .glob 1 1]⟩, ⟨.variant ["Leaf", "N"], [.glob 0 0, .glob 1 0]⟩]
  have hall : ∀ c ∈ (List.range 2).permutations',
      (match insertSccs exLe exTwice exUnit (List.replicate exTwice.length none) [c] with
       | some (U', rs) => decide (U'.main = exUnit.main ∧ U'.recs = [W] ∧
          (rs = [some (.glob 1 0), some (.glob 1 1)] ∨ rs = [some (.glob 1 1), some (.glob 1 0)]))
       | none => false) = true := by decide +kernel
  have h := hall c (perm_range hp)
  split at h
  · next U' rs hs =>
    simp only [decide_eq_true_eq] at h
    obtain ⟨h1, h2, h3⟩ := h
    have hins : insertTypes order exLe exUnit exTwice = some (U', rs.map (·.getD (.loc 0))) := by
      have hn : exTwice.map Kind.normalize = exTwice := by decide +kernel
      rw [insertTypes, hn, insertNormal]
      have hn : allPlain exTwice = none := by decide +kernel
      have hl : ¬ exTwice.length = 1 := by decide
      rw [hn]
      simp only [if_neg hl, hc, Option.bind_some, hs, Option.map_some]
    have hA : U'.look (.glob 1 0) = some W[0] := by simp [Universe.look, Universe.world, h2, W]
    have hB : U'.look (.glob 1 1) = some W[1] := by simp [Universe.look, Universe.world, h2, W]
    have hu : U'.look (.glob 0 0) = some ⟨.tuple, []⟩ := by simp [Universe.look, Universe.world, h1, exUnit]
    have hsame : ∀ r r', (r = .glob 1 0 ∧ r' = .glob 1 1 ∨ r = .glob 1 1 ∧ r' = .glob 1 0) →
        Same U'.look U'.look r r' := by
      intro r r' hr
      refine same_of_bisim (R := fun r r' => (r = .glob 1 0 ∧ r' = .glob 1 1 ∨ r = .glob 1 1 ∧ r' = .glob 1 0) ∨
        (r = .glob 0 0 ∧ r' = .glob 0 0)) ?_ (.inl hr)
      rintro r r' ((⟨rfl, rfl⟩ | ⟨rfl, rfl⟩) | ⟨rfl, rfl⟩)
      · exact ⟨_, _, hA, hB, rfl, .cons (.inr ⟨rfl, rfl⟩) (.cons (.inl (.inr ⟨rfl, rfl⟩)) .nil)⟩
      · exact ⟨_, _, hB, hA, rfl, .cons (.inr ⟨rfl, rfl⟩) (.cons (.inl (.inl ⟨rfl, rfl⟩)) .nil)⟩
      · exact ⟨_, _, hu, hu, rfl, .nil⟩
    rcases h3 with rfl | rfl
    · exact ⟨U', _, _, hins, by decide, hsame _ _ (.inl ⟨rfl, rfl⟩)⟩
    · exact ⟨U', _, _, hins, by decide, hsame _ _ (.inr ⟨rfl, rfl⟩)⟩
  · cases h

/-! ## The hypotheses are met -/

theorem reach_in {L : Look} (S : List Ref) (hS : ∀ r ∈ S, ∀ k, L r = some k → ∀ s ∈ k.kids, s ∈ S) {r s : Ref}
    (hr : r ∈ S) (h : Reaches L r s) : s ∈ S := by
  induction h with
  | one hu => obtain ⟨k, hk, hs⟩ := hu; exact hS _ hr k hk _ hs
  | more _ hu ih => obtain ⟨k, hk, hs⟩ := hu; exact hS _ ih k hk _ hs

/-- `()` and `int`. -/
def exBase : Universe := ⟨[⟨.native 0, []⟩, ⟨.tuple, []⟩], [], []⟩

/-- `type List = Nil | Cons(int, List)`. -/
def exList : List Kind :=
  [⟨.variant ["Nil", "Cons"], [.glob 0 1, .loc 1]⟩, ⟨.tuple, [.glob 0 0, .loc 0]⟩]

example : insertTypes id exLe .new [⟨.tuple, []⟩, ⟨.native 0, []⟩] = some (exBase, [.glob 0 1, .glob 0 0]) := by
  decide +kernel

theorem exList_batch_in (eff : Nat → List (List Nat)) (U : Universe) (h0 : U.look (.glob 0 0) = some ⟨.native 0, []⟩)
    (h1 : U.look (.glob 0 1) = some ⟨.tuple, []⟩) : Batch eff U (exList.map Kind.normalize) := by
  have hn : exList.map Kind.normalize =
      [⟨.variant ["Cons", "Nil"], [.loc 1, .glob 0 1]⟩, ⟨.tuple, [.glob 0 0, .loc 0]⟩] := by decide +kernel
  rw [hn]
  have l0 : batch U [⟨.variant ["Cons", "Nil"], [.loc 1, .glob 0 1]⟩, ⟨.tuple, [.glob 0 0, .loc 0]⟩] (.loc 0) =
    some ⟨.variant ["Cons", "Nil"], [.loc 1, .glob 0 1]⟩ := rfl
  have l1 : batch U [⟨.variant ["Cons", "Nil"], [.loc 1, .glob 0 1]⟩, ⟨.tuple, [.glob 0 0, .loc 0]⟩] (.loc 1) =
    some ⟨.tuple, [.glob 0 0, .loc 0]⟩ := rfl
  have g0 : batch U [⟨.variant ["Cons", "Nil"], [.loc 1, .glob 0 1]⟩, ⟨.tuple, [.glob 0 0, .loc 0]⟩] (.glob 0 0) =
    some ⟨.native 0, []⟩ := h0
  have g1 : batch U [⟨.variant ["Cons", "Nil"], [.loc 1, .glob 0 1]⟩, ⟨.tuple, [.glob 0 0, .loc 0]⟩] (.glob 0 1) =
    some ⟨.tuple, []⟩ := h1
  have ln : ∀ i, batch U [⟨.variant ["Cons", "Nil"], [.loc 1, .glob 0 1]⟩, ⟨.tuple, [.glob 0 0, .loc 0]⟩]
    (.loc (i + 2)) = none := fun _ => rfl
  generalize hL : batch U [⟨.variant ["Cons", "Nil"], [.loc 1, .glob 0 1]⟩, ⟨.tuple, [.glob 0 0, .loc 0]⟩] = L at *
  refine ⟨?_, ?_, ?_⟩
  · rw [hL]
    simp [l0, l1, g0, g1]
  · simp
  · rw [hL]
    have hS : ∀ r ∈ [Ref.loc 0, .loc 1, .glob 0 0, .glob 0 1], ∀ k, L r = some k →
        ∀ s ∈ k.kids, s ∈ [Ref.loc 0, .loc 1, .glob 0 0, .glob 0 1] := by
      intro r hr k hk s hs
      simp only [List.mem_cons, List.not_mem_nil, or_false] at hr
      rcases hr with rfl | rfl | rfl | rfl
      · rw [l0] at hk; cases hk; simp at hs; rcases hs with rfl | rfl <;> simp
      · rw [l1] at hk; cases hk; simp at hs; rcases hs with rfl | rfl <;> simp
      · rw [g0] at hk; cases hk; simp at hs
      · rw [g1] at hk; cases hk; simp at hs
    intro i r hc hr hs
    have h1 := hs 1
    match i with
    | 0 =>
      have := reach_in _ hS (by simp) hr
      simp only [List.mem_cons, List.not_mem_nil, or_false] at this
      rcases this with rfl | rfl | rfl | rfl
      · rfl
      · simp [Intern.unfold, l0, l1] at h1
      · simp [Intern.unfold, l0, g0] at h1
      · simp [Intern.unfold, l0, g1] at h1
    | 1 =>
      have := reach_in _ hS (by simp) hr
      simp only [List.mem_cons, List.not_mem_nil, or_false] at this
      rcases this with rfl | rfl | rfl | rfl
      · simp [Intern.unfold, l0, l1] at h1
      · rfl
      · simp [Intern.unfold, l1, g0] at h1
      · simp [Intern.unfold, l1, g1] at h1
    | i + 2 =>
      obtain ⟨k, hk⟩ := hc.source
      rw [ln] at hk; cases hk

theorem exList_batch (eff : Nat → List (List Nat)) : Batch eff exBase (exList.map Kind.normalize) :=
  exList_batch_in eff exBase rfl rfl

/-- The hypotheses of the theorems hold for lists of integers. -/
example : Built (fun _ => []) exLe exBase ∧ Batch (fun _ => []) exBase (exList.map Kind.normalize) := by
  refine ⟨.store (order := id) .new (fun l => .refl l) (kinds := [⟨.tuple, []⟩, ⟨.native 0, []⟩])
    (types := [.glob 0 1, .glob 0 0]) ?_ (by decide +kernel), exList_batch _⟩
  have hn : [(⟨.tuple, []⟩ : Kind), ⟨.native 0, []⟩].map Kind.normalize = [⟨.tuple, []⟩, ⟨.native 0, []⟩] := rfl
  rw [hn]
  refine ⟨by simp, by simp, ?_⟩
  intro i r hc
  exfalso
  obtain ⟨s, ⟨k, hk, hs⟩, _⟩ := hc.first
  match i with
  | 0 => cases hk; simp at hs
  | 1 => cases hk; simp at hs
  | i + 2 => cases hk

/-- The tail of a list, `Cons(int, List)`, written again with the handle of the list, is found. -/
example : (insertNonRecursive ⟨exBase.main, [[⟨.variant ["Cons", "Nil"], [.glob 1 1, .glob 0 1]⟩,
    ⟨.tuple, [.glob 0 0, .glob 1 0]⟩]], []⟩ ⟨.tuple, [.glob 0 0, .glob 1 0]⟩ [1]).2 = .glob 1 1 := by
  decide +kernel

end Ferlium.Intern
