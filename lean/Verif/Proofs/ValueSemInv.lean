import Verif.Proofs.ValueSemMem

/-!
# The relation between the compiled program and the values of the variables
-/

namespace Ferlium.ValueSem

/-! ### Static and dynamic paths -/

/-- A step which is described by a static part. -/
def MatchPart : SPart → Part Nat → Prop
  | .proj i, .proj j => i = j
  | .index i, .idx _ j => i = j
  | .dyn, .idx _ _ => True
  | _, _ => False

/-- A path which is described by a static path. -/
def Matches : List SPart → List (Part Nat) → Prop := List.Forall₂ MatchPart

theorem Matches.congr {π : List SPart} {p q : List (Part Nat)} (h : Matches π q)
    (hp : p.map Part.erase = q.map Part.erase) : Matches π p := by
  induction h generalizing p with
  | nil => cases p with
    | nil => exact List.Forall₂.nil
    | cons u p => cases hp
  | @cons a b l₁ l₂ hab hl ih => cases p with
    | nil => cases hp
    | cons u p =>
      simp only [List.map_cons, List.cons.injEq] at hp
      refine List.Forall₂.cons ?_ (ih hp.2)
      cases u <;> cases b <;> simp only [Part.erase] at hp <;> cases hp.1 <;> cases a <;>
        first | exact hab | exact hab.elim

theorem Matches.append {π ρ : List SPart} {p q : List (Part Nat)} (h : Matches π p)
    (h' : Matches ρ q) : Matches (π ++ ρ) (p ++ q) := List.rel_append h h'

/-- Static paths which do not overlap describe separate paths. -/
theorem div_of_parts : ∀ {π ρ : List SPart} {p q : List (Part Nat)}, partsOverlap π ρ = false →
    Matches π p → Matches ρ q → Div p q
  | [], _, _, _, h, _, _ => by simp [partsOverlap] at h
  | _ :: _, [], _, _, h, _, _ => by simp [partsOverlap] at h
  | a :: π, b :: ρ, p, q, h, hp, hq => by
    cases hp with
    | @cons _ u _ p ha hp => cases hq with
      | @cons _ w _ q hb hq =>
        cases a <;> cases b <;> simp only [partsOverlap] at h <;>
          first | exact absurd h (by decide) | skip
        · cases u <;> first | exact ha.elim | skip
          cases w <;> first | exact hb.elim | skip
          simp only [MatchPart] at ha hb
          subst ha; subst hb
          split at h
          · next hne => exact Or.inl (by simpa [Part.slot] using hne)
          · exact Or.inr (div_of_parts h hp hq)
        · cases u <;> first | exact ha.elim | skip
          cases w <;> first | exact hb.elim | skip
          simp only [MatchPart] at ha hb
          subst ha; subst hb
          split at h
          · next hne => exact Or.inl (by simpa [Part.slot] using hne)
          · exact Or.inr (div_of_parts h hp hq)

theorem parts_proj : ∀ p : Place, p.indexed = false → ∀ u ∈ p.parts, ∃ i, u = .proj i
  | .var _, _, u, hu => by simp [Place.parts] at hu
  | .proj p i, h, u, hu => by
    rcases List.mem_append.mp hu with hu | hu
    · exact parts_proj p h u hu
    · exact ⟨i, by simpa using hu⟩
  | .index p e, h, _, _ => by simp [Place.indexed] at h

theorem Matches.proj {π : List SPart} {q : List (Part Nat)} (h : Matches π q)
    (hp : ∀ u ∈ π, ∃ i, u = .proj i) : ∀ u ∈ q, ∃ i, u = .proj i := by
  induction h with
  | nil => intro u hu; cases hu
  | @cons a b l₁ l₂ hab hl ih =>
    intro u hu
    rcases List.mem_cons.mp hu with rfl | hu
    · obtain ⟨i, rfl⟩ := hp a List.mem_cons_self
      cases u with
      | proj j => exact ⟨j, rfl⟩
      | idx t j => exact hab.elim
    · exact ih (fun w hw => hp w (List.mem_cons_of_mem _ hw)) u hu

theorem proj_inj : ∀ {p q : List (Part Nat)}, (∀ u ∈ q, ∃ i, u = .proj i) →
    p.map Part.erase = q.map Part.erase → p = q
  | [], [], _, _ => rfl
  | [], _ :: _, _, h => by cases h
  | _ :: _, [], _, h => by cases h
  | u :: p, w :: q, hq, h => by
    simp only [List.map_cons, List.cons.injEq] at h
    obtain ⟨i, rfl⟩ := hq w List.mem_cons_self
    have : p = q := proj_inj (fun z hz => hq z (List.mem_cons_of_mem _ hz)) h.2
    cases u with
    | proj j =>
      simp only [Part.erase, Part.proj.injEq] at h
      rw [this, h.1]
    | idx t j => cases h.1

/-! ### The invariant -/

/-- Each name stands for an address with the value of the name, and a mutable name shares nothing
with another name. -/
structure Inv (E : Env) (m : Mem) (s : List (Val Unit)) : Prop where
  len : s.length = E.length
  rel : ∀ (x : Nat) (b : Bool × Addr), E[x]? = some b →
    b.2.1 < m.next ∧ ∃ M, rd m.cells b.2 = some M ∧ s[x]? = some M.erase
  apart : E.Pairwise Apart

theorem apart_of {E : Env} (h : E.Pairwise Apart) {x y : Nat} {b c : Bool × Addr} (hx : E[x]? = some b)
    (hy : E[y]? = some c) (hne : x ≠ y) : Apart b c := by
  obtain ⟨hxl, rfl⟩ := List.getElem?_eq_some_iff.mp hx
  obtain ⟨hyl, rfl⟩ := List.getElem?_eq_some_iff.mp hy
  rcases lt_or_gt_of_ne hne with hlt | hlt
  · exact List.pairwise_iff_getElem.mp h x y hxl hyl hlt
  · exact (List.pairwise_iff_getElem.mp h y x hyl hxl hlt).symm

/-- Two static paths of the frame which do not overlap. -/
theorem disj_of_overlap {E : Env} (h : E.Pairwise Apart) {x y : Nat} {b c : Bool × Addr} {π ρ : List SPart} {q r}
    (hx : E[x]? = some b) (hy : E[y]? = some c) (hm : b.1 = true ∨ c.1 = true)
    (ho : overlap (x, π) (y, ρ) = false) (hq : Matches π q) (hr : Matches ρ r) :
    Disj (b.2.sub q) (c.2.sub r) := by
  by_cases hxy : x = y
  · subst hxy
    rw [hx] at hy
    cases hy
    simp only [overlap, ne_eq, not_true, if_false] at ho
    exact Or.inr ((div_of_parts ho hq hr).prefix _)
  · exact ((apart_of h hx hy hxy hm).sub_left q).sub_right r

theorem Inv.mono {E : Env} {m m' : Mem} {s : List (Val Unit)} (h : Inv E m s)
    (he : EqOn m.next m'.cells m.cells) (hl : m.next ≤ m'.next) : Inv E m' s where
  len := h.len
  rel x b hb := by
    obtain ⟨hlt, M, hM, hs⟩ := h.rel x b hb
    exact ⟨hlt.trans_le hl, M, (he.rd hlt).trans hM, hs⟩
  apart := h.apart

/-- A write through a mutable name. -/
theorem Inv.write {E : Env} {f : Nat → Val Nat} {k : Nat} {s : List (Val Unit)}
    (h : Inv E ⟨f, k⟩ s) {x : Nat} {b : Bool × Addr} {q : List (Part Nat)} {U : Val Nat} (hb : E[x]? = some b)
    (hm : b.1 = true) (hr : rd f (b.2.sub q) = some U) (M : Val Nat) (k' : Nat) (hk : k ≤ k') :
    Inv E ⟨writeCells f (b.2.sub q) M, k'⟩
      (s.modify x (fun v => v.set (q.map Part.erase) M.erase)) where
  len := by rw [List.length_modify]; exact h.len
  rel y c hc := by
    obtain ⟨hlt, N, hN, hs⟩ := h.rel y c hc
    refine ⟨hlt.trans_le hk, ?_⟩
    by_cases hxy : x = y
    · subst hxy
      rw [hb] at hc
      cases hc
      refine ⟨N.set q M, ?_, ?_⟩
      · show rd (writeCells f (b.2.sub q) M) b.2 = _
        rw [rd_write_sub, hN]
        rfl
      · rw [rd_sub, hN] at hr
        rw [List.getElem?_modify_eq, hs, erase_set M q hr]
        rfl
    · refine ⟨N, ?_, ?_⟩
      · show rd (writeCells f (b.2.sub q) M) c.2 = _
        rw [rd_write_disj ((apart_of h.apart hb hc hxy (Or.inl hm)).sub_left q)]
        exact hN
      · simp [List.getElem?_modify, hxy, hs]
  apart := h.apart

/-- The state after an evaluation, compared to the state before.  `mw` tells which static paths may
have been written. -/
structure Post (E : Env) (mw : SPath → Bool) (m m' : Mem) (s' : List (Val Unit)) : Prop where
  inv : Inv E m' s'
  le : m.next ≤ m'.next
  frame : EqOn m.next (wipe (mutAddrs E) m'.cells) (wipe (mutAddrs E) m.cells)
  unch : ∀ (x : Nat) (b : Bool × Addr) π q, E[x]? = some b → mw (x, π) = false → Matches π q →
    rd m'.cells (b.2.sub q) = rd m.cells (b.2.sub q)

theorem Post.refl {E : Env} {mw} {m : Mem} {s} (h : Inv E m s) : Post E mw m m s :=
  ⟨h, le_refl _, fun _ _ => rfl, fun _ _ _ _ _ _ _ => rfl⟩

theorem Post.trans {E : Env} {mw mw₁ mw₂ : SPath → Bool} {m m₁ m₂ : Mem} {s₁ s₂}
    (h₁ : Post E mw₁ m m₁ s₁) (h₂ : Post E mw₂ m₁ m₂ s₂)
    (hw : ∀ o, mw o = false → mw₁ o = false ∧ mw₂ o = false) : Post E mw m m₂ s₂ where
  inv := h₂.inv
  le := h₁.le.trans h₂.le
  frame := (h₂.frame.mono h₁.le).trans h₁.frame
  unch x b π q hb ho hq := (h₂.unch x b π q hb (hw _ ho).2 hq).trans
    (h₁.unch x b π q hb (hw _ ho).1 hq)

theorem Post.weaken {E : Env} {mw mw₁ : SPath → Bool} {m m₁ : Mem} {s₁}
    (h₁ : Post E mw₁ m m₁ s₁) (hw : ∀ o, mw o = false → mw₁ o = false) : Post E mw m m₁ s₁ where
  inv := h₁.inv
  le := h₁.le
  frame := h₁.frame
  unch x b π q hb ho hq := h₁.unch x b π q hb (hw _ ho) hq

theorem alloc_eqOn (m : Mem) (v : Val Unit) : EqOn m.next (m.alloc v).cells m.cells := by
  intro c hc
  simp only [Mem.alloc]
  rw [if_neg (Nat.ne_of_lt hc)]

theorem Post.of_eqOn {E : Env} {mw} {m m' : Mem} {s} (h : Inv E m s)
    (he : EqOn m.next m'.cells m.cells) (hl : m.next ≤ m'.next) : Post E mw m m' s where
  inv := h.mono he hl
  le := hl
  frame := EqOn.wipe _ he
  unch x b _ q hb _ _ := he.rd (a := b.2.sub q) (h.rel x b hb).1

theorem Post.alloc {E : Env} {mw} {m : Mem} {s} (h : Inv E m s) (v : Val Unit) :
    Post E mw m (m.alloc v) s := .of_eqOn h (alloc_eqOn m v) (Nat.le_succ _)

theorem Inv.mem_mutAddrs {E : Env} {x : Nat} {b : Bool × Addr} (hb : E[x]? = some b) (hm : b.1 = true) :
    b.2 ∈ mutAddrs E := by
  refine ValueSem.mem_mutAddrs.mpr ?_
  have := List.mem_of_getElem? hb
  obtain ⟨b1, b2⟩ := b
  cases hm
  exact this

/-- An assignment. -/
theorem Post.write {E : Env} {m : Mem} {s : List (Val Unit)} (h : Inv E m s) {x : Nat} {b : Bool × Addr}
    {π : List SPart} {q : List (Part Nat)} {U : Val Nat} (hb : E[x]? = some b) (hm : b.1 = true)
    (hq : Matches π q) (hr : rd m.cells (b.2.sub q) = some U) (v : Val Unit) :
    Post E (fun o => overlap (x, π) o) m (m.write (b.2.sub q) v)
      (s.modify x (fun u => u.set (q.map Part.erase) v)) where
  inv := by
    have := Inv.write (f := m.cells) (k := m.next) h hb hm hr (v.fresh m.next) (m.next + 1)
      (Nat.le_succ _)
    rwa [erase_fresh] at this
  le := Nat.le_succ _
  frame := by
    show EqOn m.next (wipe _ (writeCells m.cells (b.2.sub q) _)) _
    rw [wipe_under (pairwise_mutAddrs h.apart) (Inv.mem_mutAddrs hb hm)]
    exact fun _ _ => rfl
  unch y c ρ r hc ho hr' := rd_write_disj (disj_of_overlap h.apart hb hc (Or.inl hm) ho hq hr')

/-! ### Addresses which are held -/

/-- The address and the part of the variable have the same value (or both do not exist). -/
def Held (m : Mem) (s : List (Val Unit)) (x : Nat) (b : Bool × Addr) (q : List (Part Nat)) : Prop :=
  (rd m.cells (b.2.sub q)).map Val.erase = part s x (q.map Part.erase)

theorem part_eq {E : Env} {m : Mem} {s : List (Val Unit)} (h : Inv E m s) {x : Nat} {b : Bool × Addr}
    (hb : E[x]? = some b) {M} (hM : rd m.cells b.2 = some M) (q) : part s x q = M.erase.get q := by
  obtain ⟨_, N, hN, hs⟩ := h.rel x b hb
  rw [hN] at hM
  cases hM
  simp only [part, hs]

theorem Held.of_proj {E : Env} {m : Mem} {s : List (Val Unit)} (h : Inv E m s) {x : Nat} {b : Bool × Addr}
    {q : List (Part Nat)} (hb : E[x]? = some b) (hq : ∀ u ∈ q, ∃ i, u = .proj i) :
    Held m s x b q := by
  obtain ⟨_, M, hM, hs⟩ := h.rel x b hb
  unfold Held
  rw [rd_sub, hM, part_eq h hb hM, Option.bind_some]
  cases hg : M.get q with
  | some u => rw [erase_get q hg]; rfl
  | none =>
    cases he : M.erase.get (q.map Part.erase) with
    | none => rfl
    | some u =>
      obtain ⟨p, w, hp, hw, _⟩ := get_erase _ he
      rw [proj_inj hq hp, hg] at hw
      cases hw

/-- A part whose addresses are not written keeps its value. -/
theorem part_unch {E : Env} {m m' : Mem} {s s' : List (Val Unit)} (h : Inv E m s) (h' : Inv E m' s')
    {x : Nat} {b : Bool × Addr} (hb : E[x]? = some b) {q : List (Part Unit)}
    (hu : ∀ p, p.map Part.erase = q → rd m'.cells (b.2.sub p) = rd m.cells (b.2.sub p)) :
    part s' x q = part s x q := by
  obtain ⟨_, M, hM, _⟩ := h.rel x b hb
  obtain ⟨_, M', hM', _⟩ := h'.rel x b hb
  rw [part_eq h hb hM, part_eq h' hb hM']
  have hu' : ∀ p, p.map Part.erase = q → M'.get p = M.get p := by
    intro p hp
    have := hu p hp
    rwa [rd_sub, rd_sub, hM, hM'] at this
  cases hg : M.erase.get q with
  | some u =>
    obtain ⟨p, w, hp, hw, rfl⟩ := get_erase _ hg
    have := erase_get p ((hu' p hp).trans hw)
    rwa [hp] at this
  | none =>
    cases hg' : M'.erase.get q with
    | none => rfl
    | some u =>
      obtain ⟨p, w, hp, hw, rfl⟩ := get_erase _ hg'
      have := erase_get p ((hu' p hp).symm.trans hw)
      rw [hp, hg] at this
      cases this

theorem Held.keep {E : Env} {mw} {m m' : Mem} {s s' : List (Val Unit)} (h : Inv E m s)
    (hP : Post E mw m m' s') {p : Place} {b : Bool × Addr} {q : List (Part Nat)} (hb : E[p.root]? = some b)
    (hq : Matches p.parts q) (hH : Held m s p.root b q)
    (hw : p.indexed = true → mw p.path = false) : Held m' s' p.root b q := by
  by_cases hi : p.indexed = true
  · have ho := hw hi
    unfold Held
    rw [hP.unch _ b _ q hb ho hq, part_unch h hP.inv hb (q := q.map Part.erase)
      (fun r hr => hP.unch _ b _ r hb ho (hq.congr hr))]
    exact hH
  · exact Held.of_proj hP.inv hb (hq.proj (parts_proj p (by simpa using hi)))

theorem Held.none {m : Mem} {s : List (Val Unit)} {x b q} (h : Held m s x b q) :
    rd m.cells (b.2.sub q) = none ↔ part s x (q.map Part.erase) = none := by
  unfold Held at h
  cases hr : rd m.cells (b.2.sub q) with
  | none => rw [hr] at h; exact ⟨fun _ => h.symm, fun _ => rfl⟩
  | some v => rw [hr] at h; rw [← h]; simp

end Ferlium.ValueSem
