import Verif.Model.Verify
import Mathlib.Tactic

/-!
Trees of storage states: which states the leaf on a path has, and how the operations on trees change it.
-/
namespace Ferlium.Verify

/-! ### Types and paths -/

def Ty.fields : Ty → Tys
  | .mk _ _ _ fs => fs

def Ty.kind : Ty → Kind
  | .mk _ _ k _ => k

def Tys.get : Tys → Nat → Option Ty
  | .nil, _ => none
  | .cons t _, 0 => some t
  | .cons _ rest, i + 1 => rest.get i

/-- The type of the place at a path in storage of the type. -/
def Ty.at : List Nat → Ty → Option Ty
  | [], t => some t
  | i :: p, t => (t.fields.get i).bind (Ty.at p)

/-- The longest part of a path that has a type. -/
def Ty.shell : List Nat → Ty → List Nat
  | [], _ => []
  | i :: p, t =>
    match t.fields.get i with
    | some c => i :: Ty.shell p c
    | none => []

/-- A place without fields of its own is on the path. -/
def Ty.ends : List Nat → Ty → Bool
  | [], t => decide (t.fields = .nil)
  | i :: q, t => decide (t.fields = .nil) || match t.fields.get i with
    | some c => Ty.ends q c
    | none => false

/-- Something that has to be dropped can be at the path: there is a place without fields on it, whose type is not an empty
tuple, and no type on the way is trivially copied. -/
def Ty.room : List Nat → Ty → Bool
  | [], t => !t.plain && decide (t.fields = .nil) && decide (t.kind ≠ .product)
  | i :: q, t => !t.plain && if t.fields = .nil then decide (t.kind ≠ .product) else match t.fields.get i with
    | some c => Ty.room q c
    | none => false

theorem shell_at : ∀ (p : List Nat) (t x : Ty), Ty.at p t = some x → Ty.shell p t = p
  | [], _, _, _ => rfl
  | i :: p, t, x, h => by
    simp only [Ty.at, Option.bind_eq_some_iff] at h
    obtain ⟨c, h1, h2⟩ := h
    simp only [Ty.shell, h1, shell_at p c x h2]

theorem shell_prefix : ∀ (p : List Nat) (t : Ty), Ty.shell p t <+: p
  | [], _ => List.prefix_rfl
  | i :: p, t => by
    simp only [Ty.shell]
    split
    · exact (List.prefix_cons_inj i).2 (shell_prefix p _)
    · exact List.nil_prefix

theorem at_shell : ∀ (p : List Nat) (t : Ty), ∃ x, Ty.at (Ty.shell p t) t = some x
  | [], t => ⟨t, rfl⟩
  | i :: p, t => by
    simp only [Ty.shell]
    cases h : t.fields.get i with
    | none => exact ⟨t, rfl⟩
    | some c =>
      obtain ⟨x, hx⟩ := at_shell p c
      exact ⟨x, by simp only [Ty.at, h, Option.bind_some, hx]⟩

theorem room_at : ∀ (p : List Nat) (t x : Ty) (s : List Nat), Ty.at p t = some x → Ty.room (p ++ s) t = true → Ty.room s x = true
  | [], t, x, s, h, hr => by
    simp only [Ty.at, Option.some.injEq] at h
    subst h
    exact hr
  | i :: p, t, x, s, h, hr => by
    simp only [Ty.at, Option.bind_eq_some_iff] at h
    obtain ⟨c, h1, h2⟩ := h
    simp only [List.cons_append, Ty.room, Bool.and_eq_true] at hr
    have hne : t.fields ≠ .nil := by
      intro he
      rw [he] at h1
      simp [Tys.get] at h1
    rw [if_neg hne, h1] at hr
    exact room_at p c x s h2 hr.2

theorem room_plain {t : Ty} {s : List Nat} (h : Ty.room s t = true) : t.plain = false := by
  cases s <;> simp only [Ty.room, Bool.and_eq_true, Bool.not_eq_true'] at h
  · exact h.1.1
  · exact h.1

theorem room_ends : ∀ (q : List Nat) (t : Ty), Ty.room q t = true → Ty.ends q t = true
  | [], t, h => by
    simp only [Ty.room, Bool.and_eq_true] at h
    exact h.1.2
  | i :: q, t, h => by
    simp only [Ty.room, Bool.and_eq_true] at h
    simp only [Ty.ends, Bool.or_eq_true]
    by_cases hn : t.fields = .nil
    · exact Or.inl (by simpa using hn)
    · rw [if_neg hn] at h
      right
      cases hc : t.fields.get i with
      | none => rw [hc] at h; simp at h
      | some c => rw [hc] at h; exact room_ends q c h.2

theorem ends_at : ∀ (p : List Nat) (t x : Ty) (s : List Nat), Ty.at p t = some x → Ty.ends (p ++ s) t = Ty.ends s x
  | [], t, x, s, h => by
    simp only [Ty.at, Option.some.injEq] at h
    subst h
    rfl
  | i :: p, t, x, s, h => by
    simp only [Ty.at, Option.bind_eq_some_iff] at h
    obtain ⟨c, h1, h2⟩ := h
    have hne : t.fields ≠ .nil := by
      intro he
      rw [he] at h1
      simp [Tys.get] at h1
    simp only [List.cons_append, Ty.ends, h1]
    rw [ends_at p c x s h2]
    simp [hne]

/-! ### Leaves -/

/-- Every state possible for `a` is possible for `b`. -/
structure Leaf.le (a b : Leaf) : Prop where
  un : a.un = true → b.un = true
  ab : a.ab = true → b.ab = true
  ln : a.ln = true → b.ln = true
  ld : a.ld = true → b.ld = true

theorem Leaf.le_refl (a : Leaf) : a.le a := ⟨id, id, id, id⟩

theorem Leaf.le.trans {a b c : Leaf} (h : a.le b) (h' : b.le c) : a.le c :=
  ⟨fun x => h'.un (h.un x), fun x => h'.ab (h.ab x), fun x => h'.ln (h.ln x), fun x => h'.ld (h.ld x)⟩

theorem Leaf.le_join_left (a b : Leaf) : a.le (a.join b) := by
  constructor <;> intro h <;> simp [Leaf.join, h]

theorem Leaf.le_join_right (a b : Leaf) : b.le (a.join b) := by
  constructor <;> intro h <;> simp [Leaf.join, h]

theorem Leaf.join_comm4 (a b c d : Leaf) : (a.join b).join (c.join d) = (a.join c).join (b.join d) := by
  obtain ⟨a1, a2, a3, a4⟩ := a
  obtain ⟨b1, b2, b3, b4⟩ := b
  obtain ⟨c1, c2, c3, c4⟩ := c
  obtain ⟨d1, d2, d3, d4⟩ := d
  simp only [Leaf.join, Leaf.mk.injEq]
  refine ⟨?_, ?_, ?_, ?_⟩ <;> simp only [Bool.or_assoc, Bool.or_left_comm]

theorem Leaf.join_self (a : Leaf) : a.join a = a := by
  obtain ⟨a1, a2, a3, a4⟩ := a
  simp [Leaf.join]

theorem Leaf.join_zero (a : Leaf) : a.join ⟨false, false, false, false⟩ = a := by
  obtain ⟨a1, a2, a3, a4⟩ := a
  simp [Leaf.join]

/-- The state of the leaf that is on the path. -/
def leafOn : List Nat → Tree → Option Leaf
  | [], t => if t.fields = .nil then some t.st else none
  | i :: q, t => if t.fields = .nil then some t.st else (t.fields.get i).bind (leafOn q)

theorem leafOn_cons {i : Nat} {q : List Nat} {T : Tree} (h : T.fields ≠ .nil) :
    leafOn (i :: q) T = (T.fields.get i).bind (leafOn q) := by
  simp only [leafOn, if_neg h]

theorem leafOn_nil {T : Tree} (h : T.fields ≠ .nil) : leafOn [] T = none := by
  simp only [leafOn, if_neg h]

/-! ### Shape -/

mutual
/-- The tree has the shape of the type. -/
def Tree.Of : Tree → Ty → Prop
  | .mk ty _ fs, R => ty = R ∧ fs.Of R.fields

def Trees.Of : Trees → Tys → Prop
  | .nil, .nil => True
  | .cons t rest, .cons u rest' => t.Of u ∧ rest.Of rest'
  | _, _ => False
end

theorem Tree.Of.ty {T : Tree} {R : Ty} (h : T.Of R) : T.ty = R := by
  cases T; simp only [Tree.Of] at h; exact h.1

theorem Tree.Of.fields {T : Tree} {R : Ty} (h : T.Of R) : T.fields.Of R.fields := by
  cases T; simp only [Tree.Of] at h; exact h.2

theorem Trees.Of.nil_iff {ts : Trees} {us : Tys} (h : ts.Of us) : ts = .nil ↔ us = .nil := by
  cases ts <;> cases us <;> simp_all [Trees.Of]

theorem Trees.Of.get : ∀ {ts : Trees} {us : Tys}, ts.Of us → ∀ i,
    (ts.get i = none ∧ us.get i = none) ∨ ∃ t u, ts.get i = some t ∧ us.get i = some u ∧ t.Of u
  | .nil, .nil, _, _ => Or.inl ⟨rfl, rfl⟩
  | .cons t _, .cons u _, h, 0 => Or.inr ⟨t, u, rfl, rfl, by simp only [Trees.Of] at h; exact h.1⟩
  | .cons _ rest, .cons _ rest', h, i + 1 => by
    simp only [Trees.Of] at h
    exact Trees.Of.get (ts := rest) (us := rest') h.2 i
  | .nil, .cons _ _, h, _ => by simp [Trees.Of] at h
  | .cons _ _, .nil, h, _ => by simp [Trees.Of] at h

theorem Trees.Of.set : ∀ {ts : Trees} {us : Tys}, ts.Of us → ∀ {i : Nat} {u : Ty} {x : Tree}, us.get i = some u → x.Of u →
    (ts.set i x).Of us
  | .nil, .nil, _, _, _, _, h, _ => by simp [Tys.get] at h
  | .cons t _, .cons u _, h, 0, _, _, h1, h2 => by
    simp only [Tys.get, Option.some.injEq] at h1
    subst h1
    simp only [Trees.Of, Trees.set] at h ⊢
    exact ⟨h2, h.2⟩
  | .cons _ rest, .cons _ rest', h, i + 1, _, _, h1, h2 => by
    simp only [Trees.Of, Trees.set] at h ⊢
    exact ⟨h.1, Trees.Of.set (ts := rest) (us := rest') h.2 h1 h2⟩
  | .nil, .cons _ _, h, _, _, _, _, _ => by simp [Trees.Of] at h
  | .cons _ _, .nil, h, _, _, _, _, _ => by simp [Trees.Of] at h

theorem at_some : ∀ (p : List Nat) {T : Tree} {R : Ty}, T.Of R → ∀ {X : Tree}, Tree.atPath p T = some X →
    ∃ U, Ty.at p R = some U ∧ X.Of U
  | [], T, R, h, X, hx => by
    simp only [Tree.atPath, Option.some.injEq] at hx
    subst hx
    exact ⟨R, rfl, h⟩
  | i :: p, T, R, h, X, hx => by
    simp only [Tree.atPath, Option.bind_eq_some_iff] at hx
    obtain ⟨c, h1, h2⟩ := hx
    rcases h.fields.get i with ⟨h3, _⟩ | ⟨t, u, h3, h4, h5⟩
    · rw [h3] at h1; cases h1
    · rw [h3, Option.some.injEq] at h1
      subst h1
      obtain ⟨U, h6, h7⟩ := at_some p h5 h2
      exact ⟨U, by simp only [Ty.at, h4, Option.bind_some, h6], h7⟩

theorem at_none : ∀ (p : List Nat) {T : Tree} {R : Ty}, T.Of R → Tree.atPath p T = none → Ty.at p R = none
  | [], T, R, h, hx => by simp [Tree.atPath] at hx
  | i :: p, T, R, h, hx => by
    rcases h.fields.get i with ⟨_, h4⟩ | ⟨t, u, h3, h4, h5⟩
    · simp only [Ty.at, h4, Option.bind_none]
    · simp only [Tree.atPath, h3, Option.bind_some] at hx
      simp only [Ty.at, h4, Option.bind_some]
      exact at_none p h5 hx

theorem prefix_shell : ∀ (p : List Nat) {T : Tree} {R : Ty}, T.Of R → p.take (Tree.prefixLen p T) = Ty.shell p R
  | [], T, R, h => rfl
  | i :: p, T, R, h => by
    rcases h.fields.get i with ⟨h3, h4⟩ | ⟨t, u, h3, h4, h5⟩
    · simp only [Tree.prefixLen, h3, Ty.shell, h4, List.take_zero]
    · simp only [Tree.prefixLen, h3, Ty.shell, h4, List.take_succ_cons]
      rw [prefix_shell p h5]

theorem leafOn_at : ∀ (p : List Nat) {T X : Tree} (s : List Nat), Tree.atPath p T = some X → leafOn (p ++ s) T = leafOn s X
  | [], T, X, s, h => by
    simp only [Tree.atPath, Option.some.injEq] at h
    subst h
    rfl
  | i :: p, T, X, s, h => by
    simp only [Tree.atPath, Option.bind_eq_some_iff] at h
    obtain ⟨c, h1, h2⟩ := h
    have hne : T.fields ≠ .nil := by
      intro he
      rw [he] at h1
      simp [Trees.get] at h1
    simp only [List.cons_append, leafOn, if_neg hne, h1, Option.bind_some]
    exact leafOn_at p s h2

theorem leafOn_ends : ∀ (q : List Nat) {T : Tree} {R : Ty}, T.Of R → (leafOn q T).isSome = Ty.ends q R
  | [], T, R, h => by
    simp only [leafOn, Ty.ends]
    have := h.fields.nil_iff
    by_cases hn : T.fields = .nil
    · simp [hn, this.1 hn]
    · have hn' : R.fields ≠ .nil := fun h => hn (this.2 h)
      simp [hn, hn']
  | i :: q, T, R, h => by
    simp only [leafOn, Ty.ends]
    have := h.fields.nil_iff
    by_cases hn : T.fields = .nil
    · simp [hn, this.1 hn]
    · have hn' : R.fields ≠ .nil := fun h => hn (this.2 h)
      simp only [if_neg hn, hn', decide_false, Bool.false_or]
      rcases h.fields.get i with ⟨h3, h4⟩ | ⟨t, u, h3, h4, h5⟩
      · rw [h3, h4]; rfl
      · rw [h3, h4]; exact leafOn_ends q h5

/-! ### Joined trees -/

mutual
/-- The state of a node with fields is the union of theirs. -/
def Tree.Joined : Tree → Prop
  | .mk _ a fs => (fs ≠ .nil → a = fs.sum) ∧ fs.Joined

def Trees.Joined : Trees → Prop
  | .nil => True
  | .cons t rest => t.Joined ∧ rest.Joined
end

theorem sum_get : ∀ {ts : Trees} {i : Nat} {t : Tree}, ts.get i = some t → t.st.le ts.sum
  | .nil, _, _, h => by simp [Trees.get] at h
  | .cons t rest, 0, _, h => by
    simp only [Trees.get, Option.some.injEq] at h
    subst h
    exact Leaf.le_join_left _ _
  | .cons _ rest, i + 1, _, h => (sum_get (ts := rest) h).trans (Leaf.le_join_right _ _)

theorem Trees.Joined.get : ∀ {ts : Trees}, ts.Joined → ∀ {i : Nat} {t : Tree}, ts.get i = some t → t.Joined
  | .nil, _, _, _, h => by simp [Trees.get] at h
  | .cons t rest, hj, 0, _, h => by
    simp only [Trees.get, Option.some.injEq] at h
    subst h
    simp only [Trees.Joined] at hj
    exact hj.1
  | .cons _ rest, hj, i + 1, _, h => by
    simp only [Trees.Joined] at hj
    exact Trees.Joined.get hj.2 h

theorem Tree.Joined.fields {T : Tree} (h : T.Joined) : T.fields.Joined := by
  cases T; simp only [Tree.Joined] at h; exact h.2

theorem Tree.Joined.sum {T : Tree} (h : T.Joined) (hn : T.fields ≠ .nil) : T.st = T.fields.sum := by
  cases T; simp only [Tree.Joined] at h; exact h.1 hn

theorem Tree.Joined.at : ∀ (p : List Nat) {T X : Tree}, T.Joined → Tree.atPath p T = some X → X.Joined
  | [], T, X, h, hx => by
    simp only [Tree.atPath, Option.some.injEq] at hx
    subst hx
    exact h
  | i :: p, T, X, h, hx => by
    simp only [Tree.atPath, Option.bind_eq_some_iff] at hx
    obtain ⟨c, h1, h2⟩ := hx
    exact Tree.Joined.at p (h.fields.get h1) h2

theorem leaf_le : ∀ (s : List Nat) {X : Tree} {a : Leaf}, X.Joined → leafOn s X = some a → a.le X.st
  | [], X, a, h, hl => by
    simp only [leafOn] at hl
    split at hl
    · cases hl; exact Leaf.le_refl _
    · cases hl
  | i :: s, X, a, h, hl => by
    simp only [leafOn] at hl
    split at hl
    · cases hl; exact Leaf.le_refl _
    · rename_i hn
      simp only [Option.bind_eq_some_iff] at hl
      obtain ⟨c, h1, h2⟩ := hl
      rw [h.sum hn]
      exact (leaf_le s (h.fields.get h1) h2).trans (sum_get h1)

/-! ### recompute -/

theorem recompute_ty (T : Tree) : T.recompute.ty = T.ty := by
  match T with
  | .mk ty a .nil => simp only [Tree.recompute]
  | .mk ty a (.cons t rest) => simp only [Tree.recompute, Tree.ty]

mutual
theorem recompute_of : ∀ {T : Tree} {R : Ty}, T.Of R → T.recompute.Of R
  | .mk ty a .nil, R, h => by simp only [Tree.recompute]; exact h
  | .mk ty a (.cons t rest), R, h => by
    simp only [Tree.recompute]
    simp only [Tree.Of] at h ⊢
    refine ⟨h.1, ?_⟩
    cases hR : R.fields with
    | nil => rw [hR] at h; simp [Trees.Of] at h
    | cons u us =>
      rw [hR] at h
      simp only [Trees.Of] at h ⊢
      exact ⟨recompute_of h.2.1, recomputeAll_of h.2.2⟩

theorem recomputeAll_of : ∀ {ts : Trees} {us : Tys}, ts.Of us → ts.recomputeAll.Of us
  | .nil, _, h => by simp only [Trees.recomputeAll]; exact h
  | .cons t rest, .nil, h => by simp [Trees.Of] at h
  | .cons t rest, .cons u us, h => by
    simp only [Trees.recomputeAll, Trees.Of] at h ⊢
    exact ⟨recompute_of h.1, recomputeAll_of h.2⟩
end

mutual
theorem recompute_joined : ∀ (T : Tree), T.recompute.Joined
  | .mk ty a .nil => by simp [Tree.recompute, Tree.Joined, Trees.Joined]
  | .mk ty a (.cons t rest) => by
    simp only [Tree.recompute, Tree.Joined, Trees.Joined]
    exact ⟨fun _ => trivial, recompute_joined t, recomputeAll_joined rest⟩

theorem recomputeAll_joined : ∀ (ts : Trees), ts.recomputeAll.Joined
  | .nil => by simp [Trees.recomputeAll, Trees.Joined]
  | .cons t rest => by
    simp only [Trees.recomputeAll, Trees.Joined]
    exact ⟨recompute_joined t, recomputeAll_joined rest⟩
end

theorem recomputeAll_get : ∀ (ts : Trees) (i : Nat), ts.recomputeAll.get i = (ts.get i).map Tree.recompute
  | .nil, _ => by simp [Trees.recomputeAll, Trees.get]
  | .cons t rest, 0 => by simp [Trees.recomputeAll, Trees.get]
  | .cons t rest, i + 1 => by
    simp only [Trees.recomputeAll, Trees.get]
    exact recomputeAll_get rest i

theorem recompute_leaf : ∀ (q : List Nat) (T : Tree), leafOn q T.recompute = leafOn q T
  | [], .mk ty a .nil => by simp only [Tree.recompute]
  | [], .mk ty a (.cons t rest) => by simp [Tree.recompute, leafOn, Tree.fields]
  | i :: q, .mk ty a .nil => by simp only [Tree.recompute]
  | i :: q, .mk ty a (.cons t rest) => by
    have hg := recomputeAll_get (.cons t rest) i
    simp only [Trees.recomputeAll] at hg
    simp only [Tree.recompute, leafOn, Tree.fields, reduceCtorEq, if_false, hg]
    cases (Trees.cons t rest).get i with
    | none => rfl
    | some c => simp only [Option.map_some, Option.bind_some]; exact recompute_leaf q c

/-! ### Setting and shaping -/

mutual
theorem setAll_of {a : Leaf} : ∀ {T : Tree} {R : Ty}, T.Of R → (T.setAll a).Of R
  | .mk ty b fs, R, h => by
    simp only [Tree.setAll, Tree.Of] at h ⊢
    exact ⟨h.1, setAlls_of h.2⟩

theorem setAlls_of {a : Leaf} : ∀ {ts : Trees} {us : Tys}, ts.Of us → (ts.setAll a).Of us
  | .nil, .nil, h => by simp only [Trees.setAll]; exact h
  | .nil, .cons u us, h => by simp [Trees.Of] at h
  | .cons t rest, .nil, h => by simp [Trees.Of] at h
  | .cons t rest, .cons u us, h => by
    simp only [Trees.setAll, Trees.Of] at h ⊢
    exact ⟨setAll_of h.1, setAlls_of h.2⟩
end

theorem setAll_st (a : Leaf) (T : Tree) : (T.setAll a).st = a := by
  cases T; simp only [Tree.setAll, Tree.st]

theorem setAlls_sum (a : Leaf) : ∀ (ts : Trees), ts ≠ .nil → (ts.setAll a).sum = a
  | .nil, h => absurd rfl h
  | .cons t .nil, _ => by simp [Trees.setAll, Trees.sum, setAll_st, Leaf.join_zero]
  | .cons t (.cons u rest), _ => by
    have := setAlls_sum a (.cons u rest) (by simp)
    simp only [Trees.setAll, Trees.sum] at this ⊢
    rw [this, setAll_st, Leaf.join_self]

theorem setAlls_nil (a : Leaf) (ts : Trees) : ts.setAll a = .nil ↔ ts = .nil := by
  cases ts <;> simp [Trees.setAll]

mutual
theorem setAll_joined (a : Leaf) : ∀ (T : Tree), (T.setAll a).Joined
  | .mk ty b fs => by
    simp only [Tree.setAll, Tree.Joined]
    exact ⟨fun h => (setAlls_sum a fs (fun he => h ((setAlls_nil a fs).2 he))).symm, setAlls_joined a fs⟩

theorem setAlls_joined (a : Leaf) : ∀ (ts : Trees), (ts.setAll a).Joined
  | .nil => by simp [Trees.setAll, Trees.Joined]
  | .cons t rest => by
    simp only [Trees.setAll, Trees.Joined]
    exact ⟨setAll_joined a t, setAlls_joined a rest⟩
end

theorem setAll_leaf {a b : Leaf} {q : List Nat} {T : Tree} (h : leafOn q (T.setAll a) = some b) : b = a := by
  induction q generalizing T with
  | nil =>
    simp only [leafOn] at h
    split at h
    · rw [Option.some.injEq] at h
      rw [← h, setAll_st]
    · cases h
  | cons i q ih =>
    simp only [leafOn] at h
    split at h
    · rw [Option.some.injEq] at h
      rw [← h, setAll_st]
    · simp only [Option.bind_eq_some_iff] at h
      obtain ⟨c, h1, h2⟩ := h
      have hg : ∀ (ts : Trees) (i : Nat) (c : Tree), (ts.setAll a).get i = some c → ∃ c' : Tree, c = c'.setAll a := by
        intro ts
        induction ts using Trees.rec (motive_1 := fun _ => True) with
        | mk => trivial
        | nil => intro i c h; simp [Trees.setAll, Trees.get] at h
        | cons t rest _ ihr =>
          intro i c h
          cases i with
          | zero =>
            simp only [Trees.setAll, Trees.get, Option.some.injEq] at h
            exact ⟨t, h.symm⟩
          | succ i =>
            simp only [Trees.setAll, Trees.get] at h
            exact ihr i c h
      cases T with
      | mk ty b' fs =>
        simp only [Tree.setAll, Tree.fields] at h1
        obtain ⟨c', rfl⟩ := hg fs i c h1
        exact ih h2

mutual
theorem shaped_of (a : Leaf) : ∀ (R : Ty), (shaped a R).Of R
  | .mk id p k fs => by
    simp only [shaped, Tree.Of]
    exact ⟨trivial, shapedAll_of a fs⟩

theorem shapedAll_of (a : Leaf) : ∀ (us : Tys), (shapedAll a us).Of us
  | .nil => by simp [shapedAll, Trees.Of]
  | .cons u us => by
    simp only [shapedAll, Trees.Of]
    exact ⟨shaped_of a u, shapedAll_of a us⟩
end

mutual
theorem shaped_setAll (a : Leaf) : ∀ (R : Ty), (shaped a R).setAll a = shaped a R
  | .mk id p k fs => by
    simp only [shaped, Tree.setAll, Tree.mk.injEq, true_and]
    exact shapedAll_setAll a fs

theorem shapedAll_setAll (a : Leaf) : ∀ (us : Tys), (shapedAll a us).setAll a = shapedAll a us
  | .nil => by simp [shapedAll, Trees.setAll]
  | .cons u us => by
    simp only [shapedAll, Trees.setAll, Trees.cons.injEq]
    exact ⟨shaped_setAll a u, shapedAll_setAll a us⟩
end

theorem shaped_joined (a : Leaf) (R : Ty) : (shaped a R).Joined := by
  rw [← shaped_setAll]; exact setAll_joined a _

theorem shaped_leaf {a b : Leaf} {q : List Nat} {R : Ty} (h : leafOn q (shaped a R) = some b) : b = a := by
  rw [← shaped_setAll] at h
  exact setAll_leaf h

/-! ### Live storage -/

mutual
theorem live_of : ∀ (R : Ty), (live R).Of R
  | .mk id true k fs => by simp only [live]; exact shaped_of _ _
  | .mk id false .product fs => by
    simp only [live]
    apply recompute_of
    simp only [Tree.Of]
    exact ⟨trivial, liveAll_of fs⟩
  | .mk id false (.named h) .nil => by simp [live, Tree.Of, Trees.Of, Ty.fields]
  | .mk id false (.named h) (.cons t rest) => by
    simp only [live]
    apply recompute_of
    simp only [Tree.Of, Ty.fields, Trees.Of]
    exact ⟨trivial, live_of t, liveAll_of rest⟩
  | .mk id false .other fs => by simp only [live]; exact shaped_of _ _

theorem liveAll_of : ∀ (us : Tys), (liveAll us).Of us
  | .nil => by simp [liveAll, Trees.Of]
  | .cons u us => by
    simp only [liveAll, Trees.Of]
    exact ⟨live_of u, liveAll_of us⟩
end

theorem live_joined : ∀ (R : Ty), (live R).Joined
  | .mk id true k fs => by simp only [live]; exact shaped_joined _ _
  | .mk id false .product fs => by simp only [live]; exact recompute_joined _
  | .mk id false (.named h) .nil => by simp [live, Tree.Joined, Trees.Joined]
  | .mk id false (.named h) (.cons t rest) => by simp only [live]; exact recompute_joined _
  | .mk id false .other fs => by simp only [live]; exact shaped_joined _ _

theorem liveAll_get : ∀ (us : Tys) (i : Nat), (liveAll us).get i = (us.get i).map live
  | .nil, _ => by simp [liveAll, Trees.get, Tys.get]
  | .cons u us, 0 => by simp [liveAll, Trees.get, Tys.get]
  | .cons u us, i + 1 => by
    simp only [liveAll, Trees.get, Tys.get]
    exact liveAll_get us i

theorem liveAll_nil (us : Tys) : liveAll us = .nil ↔ us = .nil := by
  cases us <;> simp [liveAll]

/-- The leaves of live storage are live, and what there is room for has to be dropped. -/
theorem live_leaf : ∀ (q : List Nat) (R : Ty) {a : Leaf}, leafOn q (live R) = some a →
    (a.ln = true ∨ a.ld = true) ∧ (Ty.room q R = true → a.ld = true)
  | q, .mk id true k fs, a, h => by
    simp only [live] at h
    have := shaped_leaf h
    subst this
    refine ⟨Or.inl rfl, fun hr => ?_⟩
    have := room_plain hr
    simp [Ty.plain] at this
  | q, .mk id false .other fs, a, h => by
    simp only [live] at h
    have := shaped_leaf h
    subst this
    exact ⟨Or.inr rfl, fun _ => rfl⟩
  | q, .mk id false (.named hd) .nil, a, h => by
    have : a = .LD := by
      cases q <;> simp [live, leafOn, Tree.fields, Tree.st] at h <;> exact h.symm
    subst this
    exact ⟨Or.inr rfl, fun _ => rfl⟩
  | q, .mk id false .product .nil, a, h => by
    have : a = .LN := by
      cases q <;> simp [live, liveAll, Tree.recompute, leafOn, Tree.fields, Tree.st] at h <;> exact h.symm
    subst this
    refine ⟨Or.inl rfl, fun hr => ?_⟩
    cases q <;> simp [Ty.room, Ty.plain, Ty.fields, Ty.kind] at hr
  | [], .mk id false .product (.cons t rest), a, h => by
    simp [live, liveAll, Tree.recompute, leafOn, Tree.fields] at h
  | [], .mk id false (.named hd) (.cons t rest), a, h => by
    simp [live, liveAll, Tree.recompute, leafOn, Tree.fields] at h
  | i :: q, .mk id false .product (.cons t rest), a, h => by
    simp only [live, recompute_leaf] at h
    have hg := liveAll_get (.cons t rest) i
    rw [leafOn_cons (by simp [liveAll, Tree.fields])] at h
    simp only [Tree.fields, hg] at h
    cases hc : (Tys.cons t rest).get i with
    | none => rw [hc] at h; simp at h
    | some c =>
      rw [hc] at h
      simp only [Option.map_some, Option.bind_some] at h
      obtain ⟨h1, h2⟩ := live_leaf q c h
      refine ⟨h1, fun hr => h2 ?_⟩
      simp only [Ty.room, Ty.fields, reduceCtorEq, if_false, hc, Bool.and_eq_true] at hr
      exact hr.2
  | i :: q, .mk id false (.named hd) (.cons t rest), a, h => by
    simp only [live, recompute_leaf] at h
    have hg := liveAll_get (.cons t rest) i
    simp only [liveAll] at hg
    rw [leafOn_cons (by simp [Tree.fields])] at h
    simp only [Tree.fields, hg] at h
    cases hc : (Tys.cons t rest).get i with
    | none => rw [hc] at h; simp at h
    | some c =>
      rw [hc] at h
      simp only [Option.map_some, Option.bind_some] at h
      obtain ⟨h1, h2⟩ := live_leaf q c h
      refine ⟨h1, fun hr => h2 ?_⟩
      simp only [Ty.room, Ty.fields, reduceCtorEq, if_false, hc, Bool.and_eq_true] at hr
      exact hr.2

/-! ### Replacing -/

theorem get_set : ∀ (ts : Trees) (i j : Nat) (x : Tree), (ts.set i x).get j = if i = j then (ts.get j).map (fun _ => x) else ts.get j
  | .nil, i, j, x => by simp [Trees.set, Trees.get]
  | .cons t rest, 0, 0, x => by simp [Trees.set, Trees.get]
  | .cons t rest, 0, j + 1, x => by simp [Trees.set, Trees.get]
  | .cons t rest, i + 1, 0, x => by simp [Trees.set, Trees.get]
  | .cons t rest, i + 1, j + 1, x => by
    simp only [Trees.set, Trees.get, get_set rest i j x, Nat.add_right_cancel_iff]

theorem set_nil (ts : Trees) (i : Nat) (x : Tree) : ts.set i x = .nil ↔ ts = .nil := by
  cases ts <;> cases i <;> simp [Trees.set]

theorem modify_some (f : Tree → Tree) : ∀ (p : List Nat) (T X : Tree), Tree.atPath p T = some X → ∃ T', Tree.modify f p T = some T'
  | [], T, X, h => ⟨f T, rfl⟩
  | i :: p, .mk ty a fs, X, h => by
    simp only [Tree.atPath, Option.bind_eq_some_iff, Tree.fields] at h
    obtain ⟨c, h1, h2⟩ := h
    obtain ⟨c', h3⟩ := modify_some f p c X h2
    exact ⟨_, by simp only [Tree.modify, h1, Option.bind_some, h3, Option.map_some]; rfl⟩

theorem modify_none (f : Tree → Tree) : ∀ (p : List Nat) (T : Tree), Tree.atPath p T = none → Tree.modify f p T = none
  | [], T, h => by simp [Tree.atPath] at h
  | i :: p, .mk ty a fs, h => by
    simp only [Tree.atPath, Tree.fields] at h
    simp only [Tree.modify]
    cases hc : fs.get i with
    | none => rfl
    | some c =>
      rw [hc, Option.bind_some] at h
      simp only [Option.bind_some, modify_none f p c h, Option.map_none]

theorem modify_of {f : Tree → Tree} : ∀ (p : List Nat) {T T' : Tree} {R : Ty}, T.Of R → Tree.modify f p T = some T' →
    (∀ X, Tree.atPath p T = some X → (f X).Of X.ty) → T'.Of R
  | [], T, T', R, h, hm, hf => by
    simp only [Tree.modify, Option.some.injEq] at hm
    subst hm
    rw [← h.ty]
    exact hf T rfl
  | i :: p, .mk ty a fs, T', R, h, hm, hf => by
    simp only [Tree.modify, Option.bind_eq_some_iff, Option.map_eq_some_iff] at hm
    obtain ⟨c, h1, c', h2, rfl⟩ := hm
    have h5 := h.fields
    simp only [Tree.fields] at h5
    rcases h5.get i with ⟨h3, _⟩ | ⟨t, u, h3, h4, h6⟩
    · rw [h3] at h1; cases h1
    · rw [h3, Option.some.injEq] at h1
      subst h1
      have h7 := modify_of p h6 h2 (fun X hx => hf X (by simp only [Tree.atPath, Tree.fields, h3, Option.bind_some, hx]))
      simp only [Tree.Of] at h ⊢
      exact ⟨h.1, h5.set h4 h7⟩

theorem modify_leaf_in {f : Tree → Tree} : ∀ (p : List Nat) {T T' X : Tree} (s : List Nat), Tree.modify f p T = some T' →
    Tree.atPath p T = some X → leafOn (p ++ s) T' = leafOn s (f X)
  | [], T, T', X, s, hm, hx => by
    simp only [Tree.modify, Option.some.injEq] at hm
    simp only [Tree.atPath, Option.some.injEq] at hx
    subst hm; subst hx
    rfl
  | i :: p, .mk ty a fs, T', X, s, hm, hx => by
    simp only [Tree.modify, Option.bind_eq_some_iff, Option.map_eq_some_iff] at hm
    obtain ⟨c, h1, c', h2, rfl⟩ := hm
    simp only [Tree.atPath, Tree.fields, h1, Option.bind_some] at hx
    have hne : fs.set i c' ≠ .nil := by
      intro he
      rw [set_nil] at he
      rw [he] at h1
      simp [Trees.get] at h1
    rw [List.cons_append, leafOn_cons (by exact hne)]
    simp only [Tree.fields, get_set, if_true, h1, Option.map_some, Option.bind_some]
    exact modify_leaf_in p s h2 hx

theorem modify_leaf_out {f : Tree → Tree} : ∀ (p : List Nat) {T T' : Tree} (q : List Nat), Tree.modify f p T = some T' →
    ¬ p <+: q → leafOn q T' = leafOn q T
  | [], T, T', q, hm, hq => absurd List.nil_prefix hq
  | i :: p, .mk ty a fs, T', q, hm, hq => by
    simp only [Tree.modify, Option.bind_eq_some_iff, Option.map_eq_some_iff] at hm
    obtain ⟨c, h1, c', h2, rfl⟩ := hm
    have hne : fs ≠ .nil := by
      intro he
      rw [he] at h1
      simp [Trees.get] at h1
    have hne' : fs.set i c' ≠ .nil := fun he => hne ((set_nil _ _ _).1 he)
    cases q with
    | nil => rw [leafOn_nil (by exact hne'), leafOn_nil (by exact hne)]
    | cons j q =>
      rw [leafOn_cons (by exact hne'), leafOn_cons (by exact hne)]
      simp only [Tree.fields, get_set]
      by_cases hij : i = j
      · subst hij
        rw [if_pos rfl, h1]
        simp only [Option.map_some, Option.bind_some]
        exact modify_leaf_out p q h2 (fun h => hq ((List.prefix_cons_inj i).2 h))
      · rw [if_neg hij]

/-- What replacing the storage at a path does. -/
theorem change_spec {f : Tree → Tree} {p : List Nat} {T X : Tree} {R : Ty} (h : T.Of R) (hx : Tree.atPath p T = some X)
    (hf : (f X).Of X.ty) : ∃ T', Tree.modify f p T = some T' ∧ T'.recompute.Of R ∧ T'.recompute.Joined ∧
      (∀ s, leafOn (p ++ s) T'.recompute = leafOn s (f X)) ∧ ∀ q, ¬ p <+: q → leafOn q T'.recompute = leafOn q T := by
  obtain ⟨T', h1⟩ := modify_some f p T X hx
  refine ⟨T', h1, recompute_of (modify_of p h h1 ?_), recompute_joined _, ?_, ?_⟩
  · intro Y hy
    rw [hx, Option.some.injEq] at hy
    subst hy
    exact hf
  · intro s
    rw [recompute_leaf]
    exact modify_leaf_in p s h1 hx
  · intro q hq
    rw [recompute_leaf]
    exact modify_leaf_out p q h1 hq

/-! ### Joining -/

mutual
theorem fits_of : ∀ {T T' : Tree} {R : Ty}, T.Of R → T'.Of R → T.fits T' = true
  | .mk ty a fs, .mk ty' b fs', R, h, h' => by
    simp only [Tree.Of] at h h'
    simp only [Tree.fits, Bool.and_eq_true, decide_eq_true_eq]
    exact ⟨h.1.trans h'.1.symm, fits_all h.2 h'.2⟩

theorem fits_all : ∀ {ts ts' : Trees} {us : Tys}, ts.Of us → ts'.Of us → ts.fits ts' = true
  | .nil, .nil, _, _, _ => by simp [Trees.fits]
  | .nil, .cons t r, .nil, h, h' => by simp [Trees.Of] at h'
  | .nil, .cons t r, .cons u us, h, h' => by simp [Trees.Of] at h
  | .cons t r, .nil, .nil, h, h' => by simp [Trees.Of] at h
  | .cons t r, .nil, .cons u us, h, h' => by simp [Trees.Of] at h'
  | .cons t r, .cons t' r', .nil, h, h' => by simp [Trees.Of] at h
  | .cons t r, .cons t' r', .cons u us, h, h' => by
    simp only [Trees.Of] at h h'
    simp only [Trees.fits, Bool.and_eq_true]
    exact ⟨fits_of h.1 h'.1, fits_all h.2 h'.2⟩
end

mutual
theorem join_of : ∀ {T T' : Tree} {R : Ty}, T.Of R → T'.Of R → (T.join T').Of R
  | .mk ty a fs, .mk ty' b fs', R, h, h' => by
    simp only [Tree.Of, Tree.join] at h h' ⊢
    exact ⟨h.1, join_all_of h.2 h'.2⟩

theorem join_all_of : ∀ {ts ts' : Trees} {us : Tys}, ts.Of us → ts'.Of us → (ts.join ts').Of us
  | .nil, .nil, .nil, _, _ => by simp [Trees.join, Trees.Of]
  | .nil, _, .cons u us, h, h' => by simp [Trees.Of] at h
  | .cons t r, _, .nil, h, h' => by simp [Trees.Of] at h
  | .nil, .cons t r, .nil, h, h' => by simp [Trees.Of] at h'
  | .cons t r, .nil, .cons u us, h, h' => by simp [Trees.Of] at h'
  | .cons t r, .cons t' r', .cons u us, h, h' => by
    simp only [Trees.Of, Trees.join] at h h' ⊢
    exact ⟨join_of h.1 h'.1, join_all_of h.2 h'.2⟩
end

theorem join_st (T T' : Tree) : (T.join T').st = T.st.join T'.st := by
  cases T; cases T'; simp only [Tree.join, Tree.st]

theorem join_sum : ∀ {ts ts' : Trees} {us : Tys}, ts.Of us → ts'.Of us → (ts.join ts').sum = ts.sum.join ts'.sum
  | .nil, .nil, .nil, _, _ => by simp [Trees.join, Trees.sum, Leaf.join]
  | .nil, _, .cons u us, h, h' => by simp [Trees.Of] at h
  | .cons t r, _, .nil, h, h' => by simp [Trees.Of] at h
  | .nil, .cons t r, .nil, h, h' => by simp [Trees.Of] at h'
  | .cons t r, .nil, .cons u us, h, h' => by simp [Trees.Of] at h'
  | .cons t r, .cons t' r', .cons u us, h, h' => by
    simp only [Trees.Of] at h h'
    simp only [Trees.join, Trees.sum, join_st, join_sum h.2 h'.2]
    exact Leaf.join_comm4 _ _ _ _

theorem join_nil_iff {ts ts' : Trees} : ts.join ts' = .nil ↔ ts = .nil := by
  cases ts <;> cases ts' <;> simp [Trees.join]

mutual
theorem join_joined : ∀ {T T' : Tree} {R : Ty}, T.Of R → T'.Of R → T.Joined → T'.Joined → (T.join T').Joined
  | .mk ty a fs, .mk ty' b fs', R, h, h', j, j' => by
    simp only [Tree.Of] at h h'
    simp only [Tree.Joined, Tree.join] at j j' ⊢
    refine ⟨fun hn => ?_, joinAll_joined h.2 h'.2 j.2 j'.2⟩
    have hn1 : fs ≠ .nil := fun he => hn (join_nil_iff.2 he)
    have hn2 : fs' ≠ .nil := fun he => hn1 ((h.2.nil_iff).2 ((h'.2.nil_iff).1 he))
    rw [join_sum h.2 h'.2, j.1 hn1, j'.1 hn2]

theorem joinAll_joined : ∀ {ts ts' : Trees} {us : Tys}, ts.Of us → ts'.Of us → ts.Joined → ts'.Joined → (ts.join ts').Joined
  | .nil, .nil, .nil, _, _, _, _ => by simp [Trees.join, Trees.Joined]
  | .nil, _, .cons u us, h, h', _, _ => by simp [Trees.Of] at h
  | .cons t r, _, .nil, h, h', _, _ => by simp [Trees.Of] at h
  | .nil, .cons t r, .nil, h, h', _, _ => by simp [Trees.Of] at h'
  | .cons t r, .nil, .cons u us, h, h', _, _ => by simp [Trees.Of] at h'
  | .cons t r, .cons t' r', .cons u us, h, h', j, j' => by
    simp only [Trees.Of] at h h'
    simp only [Trees.Joined, Trees.join] at j j' ⊢
    exact ⟨join_joined h.1 h'.1 j.1 j'.1, joinAll_joined h.2 h'.2 j.2 j'.2⟩
end

theorem join_get : ∀ {ts ts' : Trees} {us : Tys}, ts.Of us → ts'.Of us → ∀ i,
    (ts.join ts').get i = (ts.get i).bind fun t => (ts'.get i).map fun t' => t.join t'
  | .nil, .nil, .nil, _, _, _ => by simp [Trees.join, Trees.get]
  | .nil, _, .cons u us, h, h', _ => by simp [Trees.Of] at h
  | .cons t r, _, .nil, h, h', _ => by simp [Trees.Of] at h
  | .nil, .cons t r, .nil, h, h', _ => by simp [Trees.Of] at h'
  | .cons t r, .nil, .cons u us, h, h', _ => by simp [Trees.Of] at h'
  | .cons t r, .cons t' r', .cons u us, h, h', 0 => by simp [Trees.join, Trees.get]
  | .cons t r, .cons t' r', .cons u us, h, h', i + 1 => by
    simp only [Trees.Of] at h h'
    simp only [Trees.join, Trees.get]
    exact join_get h.2 h'.2 i

theorem join_fields (T T' : Tree) : (T.join T').fields = T.fields.join T'.fields := by
  cases T; cases T'; simp only [Tree.join, Tree.fields]

/-- The leaves of a join contain those of both. -/
theorem join_leaf : ∀ (q : List Nat) {T T' : Tree} {R : Ty}, T.Of R → T'.Of R → ∀ {a : Leaf}, leafOn q (T.join T') = some a →
    ∃ b c, leafOn q T = some b ∧ leafOn q T' = some c ∧ b.le a ∧ c.le a
  | [], T, T', R, h, h', a, hl => by
    have e1 := h.fields.nil_iff
    have e2 := h'.fields.nil_iff
    simp only [leafOn, join_fields] at hl ⊢
    by_cases hn : T.fields = .nil
    · have hn' : T'.fields = .nil := e2.2 (e1.1 hn)
      rw [if_pos (join_nil_iff.2 hn), Option.some.injEq, join_st] at hl
      subst hl
      exact ⟨_, _, if_pos hn, if_pos hn', Leaf.le_join_left _ _, Leaf.le_join_right _ _⟩
    · rw [if_neg (fun he => hn (join_nil_iff.1 he))] at hl
      cases hl
  | i :: q, T, T', R, h, h', a, hl => by
    have e1 := h.fields.nil_iff
    have e2 := h'.fields.nil_iff
    simp only [leafOn, join_fields] at hl ⊢
    by_cases hn : T.fields = .nil
    · have hn' : T'.fields = .nil := e2.2 (e1.1 hn)
      rw [if_pos (join_nil_iff.2 hn), Option.some.injEq, join_st] at hl
      subst hl
      exact ⟨_, _, if_pos hn, if_pos hn', Leaf.le_join_left _ _, Leaf.le_join_right _ _⟩
    · have hn' : T'.fields ≠ .nil := fun he => hn (e1.2 (e2.1 he))
      rw [if_neg (fun he => hn (join_nil_iff.1 he)), join_get h.fields h'.fields] at hl
      rw [if_neg hn, if_neg hn']
      rcases h.fields.get i with ⟨h3, h4⟩ | ⟨t, u, h3, h4, h5⟩
      · rw [h3] at hl; simp at hl
      · rcases h'.fields.get i with ⟨h6, h7⟩ | ⟨t', u', h6, h7, h8⟩
        · rw [h4] at h7; cases h7
        · rw [h4, Option.some.injEq] at h7
          subst h7
          rw [h3, h6] at hl
          simp only [Option.map_some, Option.bind_some] at hl
          rw [h3, h6]
          exact join_leaf q h5 h8 hl

/-- Every tree has a leaf. -/
theorem leaf_exists : ∀ (T : Tree), ∃ s a, leafOn s T = some a
  | .mk ty b .nil => ⟨[], b, by simp [leafOn, Tree.fields, Tree.st]⟩
  | .mk ty b (.cons t rest) => by
    obtain ⟨s, a, h⟩ := leaf_exists t
    exact ⟨0 :: s, a, by rw [leafOn_cons (by simp [Tree.fields])]; simp only [Tree.fields, Trees.get, Option.bind_some, h]⟩

end Ferlium.Verify
