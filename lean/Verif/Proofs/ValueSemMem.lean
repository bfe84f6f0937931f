import Verif.Model.ValueSem
import Mathlib.Tactic

/-!
# Reading and writing parts of values and of the memory
-/

namespace Ferlium.ValueSem

variable {α : Type} [DecidableEq α]

/-! ### Paths which lead to different parts -/

/-- The position meant by a step, without the buffer. -/
def Part.slot {α : Type} : Part α → Bool × Nat
  | .proj i => (false, i)
  | .idx _ i => (true, i)

/-- The paths part at some step. -/
def Div {α : Type} : List (Part α) → List (Part α) → Prop
  | u :: p, w :: q => u.slot ≠ w.slot ∨ Div p q
  | _, _ => False

theorem Div.symm {α : Type} : ∀ {p q : List (Part α)}, Div p q → Div q p
  | [], _, h => by cases h
  | _ :: _, [], h => by cases h
  | _ :: _, _ :: _, h => by
    rcases h with h | h
    · exact Or.inl (Ne.symm h)
    · exact Or.inr h.symm

theorem Div.append_right {α : Type} : ∀ {p q : List (Part α)} (r), Div p q → Div p (q ++ r)
  | [], _, _, h => by cases h
  | _ :: _, [], _, h => by cases h
  | _ :: _, _ :: _, r, h => by
    rcases h with h | h
    · exact Or.inl h
    · exact Or.inr (h.append_right r)

theorem Div.append_left {α : Type} {p q : List (Part α)} (r) (h : Div p q) : Div (p ++ r) q :=
  (h.symm.append_right r).symm

theorem Div.prefix {α : Type} {p q : List (Part α)} (h : Div p q) :
    ∀ c : List (Part α), Div (c ++ p) (c ++ q)
  | [] => h
  | _ :: c => Or.inr (h.prefix c)

theorem get_nil (v : Val α) : v.get [] = some v := by cases v <;> rfl
theorem set_nil (v w : Val α) : v.set [] w = w := by cases v <;> rfl

theorem get_append (q : List (Part α)) : ∀ (p : List (Part α)) (v : Val α),
    v.get (p ++ q) = (v.get p).bind (fun u => u.get q)
  | [], v => by simp [get_nil]
  | .proj i :: p, v => by
    cases v with
    | int n => rfl
    | arr t fs => rfl
    | tup fs =>
      simp only [List.cons_append, Val.get]
      cases h : fs[i]? with
      | none => rfl
      | some f => exact get_append q p f
  | .idx t' i :: p, v => by
    cases v with
    | int n => rfl
    | tup fs => rfl
    | arr t fs =>
      simp only [List.cons_append, Val.get]
      split
      · cases h : fs[i]? with
        | none => rfl
        | some f => exact get_append q p f
      · rfl

theorem get_set_append (q : List (Part α)) (w : Val α) : ∀ (p : List (Part α)) (v : Val α),
    (v.set (p ++ q) w).get p = (v.get p).map (fun u => u.set q w)
  | [], v => by simp [get_nil]
  | .proj i :: p, v => by
    cases v with
    | int n => rfl
    | arr t fs => rfl
    | tup fs =>
      simp only [List.cons_append, Val.get, Val.set]
      cases h : fs[i]? with
      | none => simp [Val.get, h]
      | some f =>
        have hi : i < fs.length := (List.getElem?_eq_some_iff.mp h).1
        simp only [Val.get, List.getElem?_set_self hi]
        exact get_set_append q w p f
  | .idx t' i :: p, v => by
    cases v with
    | int n => rfl
    | tup fs => rfl
    | arr t fs =>
      simp only [List.cons_append, Val.get, Val.set]
      by_cases ht : t = t'
      · simp only [ht, if_true]
        cases h : fs[i]? with
        | none => simp [Val.get, h]
        | some f =>
          have hi : i < fs.length := (List.getElem?_eq_some_iff.mp h).1
          simp only [Val.get, if_true, List.getElem?_set_self hi]
          exact get_set_append q w p f
      · simp [ht, Val.get]

theorem get_set_self {v u w : Val α} {p : List (Part α)} (h : v.get p = some u) :
    (v.set p w).get p = some w := by
  have := get_set_append [] w p v
  simpa [h, set_nil] using this

theorem get_set_div (w : Val α) : ∀ {p q : List (Part α)} (v : Val α), Div p q →
    (v.set p w).get q = v.get q
  | [], _, _, h => by cases h
  | _ :: _, [], _, h => by cases h
  | .proj i :: p, .proj j :: q, v, h => by
    cases v with
    | int n => rfl
    | arr t fs => rfl
    | tup fs =>
      simp only [Val.set]
      cases hi : fs[i]? with
      | none => rfl
      | some f =>
        by_cases hij : i = j
        · subst hij
          have hd : Div p q := by
            rcases h with h | h
            · exact absurd rfl h
            · exact h
          have hl : i < fs.length := (List.getElem?_eq_some_iff.mp hi).1
          simp only [Val.get, List.getElem?_set_self hl, hi]
          exact get_set_div w f hd
        · simp only [Val.get, List.getElem?_set_ne hij]
  | .idx t' i :: p, .idx t'' j :: q, v, h => by
    cases v with
    | int n => rfl
    | tup fs => rfl
    | arr t fs =>
      simp only [Val.set]
      by_cases ht : t = t'
      · simp only [ht, if_true]
        cases hi : fs[i]? with
        | none => rfl
        | some f =>
          by_cases hij : i = j
          · subst hij
            have hd : Div p q := by
              rcases h with h | h
              · exact absurd rfl h
              · exact h
            have hl : i < fs.length := (List.getElem?_eq_some_iff.mp hi).1
            simp only [Val.get, List.getElem?_set_self hl, hi]
            rw [get_set_div w f hd]
          · simp only [Val.get, List.getElem?_set_ne hij]
      · simp [ht]
  | .proj i :: p, .idx t'' j :: q, v, h => by
    cases v with
    | int n => rfl
    | arr t fs => rfl
    | tup fs =>
      simp only [Val.set]
      cases hi : fs[i]? <;> rfl
  | .idx t' i :: p, .proj j :: q, v, h => by
    cases v with
    | int n => rfl
    | tup fs => rfl
    | arr t fs =>
      simp only [Val.set]
      split
      · cases hi : fs[i]? <;> rfl
      · rfl

theorem set_absorb (r : List (Part α)) (w z : Val α) : ∀ (p : List (Part α)) (v : Val α),
    (v.set (p ++ r) w).set p z = v.set p z
  | [], v => by simp [set_nil]
  | .proj i :: p, v => by
    cases v with
    | int n => rfl
    | arr t fs => rfl
    | tup fs =>
      simp only [List.cons_append, Val.set]
      cases h : fs[i]? with
      | none => simp [Val.set, h]
      | some f =>
        have hi : i < fs.length := (List.getElem?_eq_some_iff.mp h).1
        simp only [Val.set, List.getElem?_set_self hi, List.set_set]
        rw [set_absorb r w z p f]
  | .idx t' i :: p, v => by
    cases v with
    | int n => rfl
    | tup fs => rfl
    | arr t fs =>
      simp only [List.cons_append, Val.set]
      by_cases ht : t = t'
      · simp only [ht, if_true]
        cases h : fs[i]? with
        | none => simp [Val.set, h]
        | some f =>
          have hi : i < fs.length := (List.getElem?_eq_some_iff.mp h).1
          simp only [Val.set, if_true, List.getElem?_set_self hi, List.set_set]
          rw [set_absorb r w z p f]
      · simp [ht, Val.set]

theorem set_get_self : ∀ (p : List (Part α)) (v w : Val α), v.get p = some w → v.set p w = v
  | [], v, w, h => by
    rw [get_nil] at h
    cases h
    exact set_nil _ _
  | .proj i :: p, v, w, h => by
    cases v with
    | int n => rfl
    | arr t fs => rfl
    | tup fs =>
      simp only [Val.get] at h
      simp only [Val.set]
      cases hi : fs[i]? with
      | none => rfl
      | some f =>
        simp only [hi] at h
        obtain ⟨hl, rfl⟩ := List.getElem?_eq_some_iff.mp hi
        simp only [set_get_self p _ w h, List.set_getElem_self]
  | .idx t' i :: p, v, w, h => by
    cases v with
    | int n => rfl
    | tup fs => rfl
    | arr t fs =>
      simp only [Val.get] at h
      simp only [Val.set]
      by_cases ht : t = t'
      · simp only [ht, if_true] at h ⊢
        cases hi : fs[i]? with
        | none => rfl
        | some f =>
          simp only [hi] at h
          obtain ⟨hl, rfl⟩ := List.getElem?_eq_some_iff.mp hi
          simp only [set_get_self p _ w h, List.set_getElem_self]
      · simp [ht]

theorem set_set_div (a b : Val α) : ∀ {p q : List (Part α)} (v : Val α), Div p q →
    (v.set p a).set q b = (v.set q b).set p a
  | [], _, _, h => by cases h
  | _ :: _, [], _, h => by cases h
  | .proj i :: p, .proj j :: q, v, h => by
    cases v with
    | int n => rfl
    | arr t fs => rfl
    | tup fs =>
      simp only [Val.set]
      by_cases hij : i = j
      · subst hij
        have hd : Div p q := by
          rcases h with h | h
          · exact absurd rfl h
          · exact h
        cases hi : fs[i]? with
        | none => simp [Val.set, hi]
        | some f =>
          have hl : i < fs.length := (List.getElem?_eq_some_iff.mp hi).1
          simp only [Val.set, List.getElem?_set_self hl, List.set_set]
          rw [set_set_div a b f hd]
      · cases hi : fs[i]? <;> cases hj : fs[j]? <;>
          simp [Val.set, hi, hj, List.getElem?_set_ne hij, List.getElem?_set_ne (Ne.symm hij)]
        exact List.set_comm _ _ hij
  | .idx t' i :: p, .idx t'' j :: q, v, h => by
    cases v with
    | int n => rfl
    | tup fs => rfl
    | arr t fs =>
      simp only [Val.set]
      by_cases ht : t = t'
      · by_cases ht' : t = t''
        · subst ht; subst ht'
          simp only [if_true]
          by_cases hij : i = j
          · subst hij
            have hd : Div p q := by
              rcases h with h | h
              · exact absurd rfl h
              · exact h
            cases hi : fs[i]? with
            | none => simp [Val.set, hi]
            | some f =>
              have hl : i < fs.length := (List.getElem?_eq_some_iff.mp hi).1
              simp only [Val.set, if_true, List.getElem?_set_self hl, List.set_set]
              rw [set_set_div a b f hd]
          · cases hi : fs[i]? <;> cases hj : fs[j]? <;>
              simp [Val.set, hi, hj, List.getElem?_set_ne hij, List.getElem?_set_ne (Ne.symm hij)]
            exact List.set_comm _ _ hij
        · subst ht
          simp only [if_true, if_neg ht']
          cases hi : fs[i]? <;> simp [Val.set, hi, ht']
      · simp only [if_neg ht]
        by_cases ht' : t = t''
        · subst ht'
          simp only [if_true]
          cases hj : fs[j]? <;> simp [Val.set, hj, ht]
        · simp [Val.set, ht, ht']
  | .proj i :: p, .idx t'' j :: q, v, h => by
    cases v with
    | int n => rfl
    | arr t fs =>
      simp only [Val.set]
      split
      · cases hj : fs[j]? <;> rfl
      · rfl
    | tup fs =>
      simp only [Val.set]
      cases hi : fs[i]? <;> rfl
  | .idx t' i :: p, .proj j :: q, v, h => by
    cases v with
    | int n => rfl
    | tup fs =>
      simp only [Val.set]
      cases hj : fs[j]? <;> rfl
    | arr t fs =>
      simp only [Val.set]
      split
      · cases hi : fs[i]? <;> rfl
      · rfl

/-! ### What a user sees -/

theorem retags_eq {α β : Type} (g : α → β) : ∀ vs : List (Val α), retags g vs = vs.map (Val.retag g)
  | [] => rfl
  | v :: vs => by simp [retags, retags_eq g vs]

theorem erase_int {α : Type} (n : Int) : (Val.int n : Val α).erase = .int n := by
  simp [Val.erase, Val.retag]
theorem erase_tup {α : Type} (fs : List (Val α)) : (Val.tup fs).erase = .tup (fs.map Val.erase) := by
  simp only [Val.erase, Val.retag, retags_eq]; rfl
theorem erase_arr {α : Type} (t : α) (fs : List (Val α)) :
    (Val.arr t fs).erase = .arr () (fs.map Val.erase) := by
  simp only [Val.erase, Val.retag, retags_eq]; rfl

mutual
theorem retag_unit {α : Type} (g : Unit → α) : ∀ v : Val Unit, (v.retag g).erase = v
  | .int n => by simp [Val.retag, erase_int]
  | .tup fs => by simp only [Val.retag, erase_tup, retags_unit g fs]
  | .arr t fs => by simp only [Val.retag, erase_arr, retags_unit g fs]
theorem retags_unit {α : Type} (g : Unit → α) : ∀ vs : List (Val Unit),
    (retags g vs).map Val.erase = vs
  | [] => rfl
  | v :: vs => by simp [retags, retag_unit g v, retags_unit g vs]
end

theorem erase_fresh (v : Val Unit) (t : Nat) : (v.fresh t).erase = v := retag_unit _ v

/-- A part which is there is also seen by the user. -/
theorem erase_get : ∀ (p : List (Part α)) {v u : Val α}, v.get p = some u →
    v.erase.get (p.map Part.erase) = some u.erase
  | [], v, u, h => by
    rw [get_nil] at h
    cases h
    exact get_nil _
  | .proj i :: p, v, u, h => by
    cases v with
    | int n => cases h
    | arr t fs => cases h
    | tup fs =>
      simp only [Val.get] at h
      cases hi : fs[i]? with
      | none => simp [hi] at h
      | some f =>
        simp only [hi] at h
        simp only [erase_tup, List.map_cons, Part.erase, Val.get, List.getElem?_map, hi,
          Option.map_some]
        exact erase_get p h
  | .idx t' i :: p, v, u, h => by
    cases v with
    | int n => cases h
    | tup fs => cases h
    | arr t fs =>
      simp only [Val.get] at h
      by_cases ht : t = t'
      · simp only [ht, if_true] at h
        cases hi : fs[i]? with
        | none => simp [hi] at h
        | some f =>
          simp only [hi] at h
          simp only [erase_arr, List.map_cons, Part.erase, Val.get, List.getElem?_map, hi,
            Option.map_some, if_true]
          exact erase_get p h
      · simp [ht] at h

/-- A part which the user sees is there. -/
theorem get_erase : ∀ (q : List (Part Unit)) {v : Val α} {u : Val Unit}, v.erase.get q = some u →
    ∃ (p : List (Part α)) (w : Val α), p.map Part.erase = q ∧ v.get p = some w ∧ w.erase = u
  | [], v, u, h => by
    rw [get_nil] at h
    cases h
    exact ⟨[], v, rfl, get_nil _, rfl⟩
  | .proj i :: q, v, u, h => by
    cases v with
    | int n => rw [erase_int] at h; cases h
    | arr t fs => rw [erase_arr] at h; cases h
    | tup fs =>
      simp only [erase_tup, Val.get, List.getElem?_map] at h
      cases hi : fs[i]? with
      | none => simp [hi] at h
      | some f =>
        simp only [hi, Option.map_some] at h
        obtain ⟨p, w, hp, hw, rfl⟩ := get_erase q h
        exact ⟨.proj i :: p, w, by simp [Part.erase, hp], by simp [Val.get, hi, hw], rfl⟩
  | .idx t' i :: q, v, u, h => by
    cases v with
    | int n => rw [erase_int] at h; cases h
    | tup fs => rw [erase_tup] at h; cases h
    | arr t fs =>
      simp only [erase_arr, Val.get, List.getElem?_map] at h
      cases hi : fs[i]? with
      | none => simp [hi] at h
      | some f =>
        simp only [hi, Option.map_some, if_true] at h
        obtain ⟨p, w, hp, hw, rfl⟩ := get_erase q h
        exact ⟨.idx t i :: p, w, by simp [Part.erase, hp], by simp [Val.get, hi, hw], rfl⟩

theorem erase_set (w : Val α) : ∀ (p : List (Part α)) {v u : Val α}, v.get p = some u →
    (v.set p w).erase = v.erase.set (p.map Part.erase) w.erase
  | [], v, u, h => by simp [set_nil]
  | .proj i :: p, v, u, h => by
    cases v with
    | int n => cases h
    | arr t fs => cases h
    | tup fs =>
      simp only [Val.get] at h
      cases hi : fs[i]? with
      | none => simp [hi] at h
      | some f =>
        simp only [hi] at h
        simp only [Val.set, hi, erase_tup, List.map_cons, Part.erase, List.getElem?_map,
          Option.map_some, List.map_set]
        rw [erase_set w p h]
  | .idx t' i :: p, v, u, h => by
    cases v with
    | int n => cases h
    | tup fs => cases h
    | arr t fs =>
      simp only [Val.get] at h
      by_cases ht : t = t'
      · simp only [ht, if_true] at h
        cases hi : fs[i]? with
        | none => simp [hi] at h
        | some f =>
          simp only [hi] at h
          simp only [Val.set, ht, if_true, hi, erase_arr, List.map_cons, Part.erase,
            List.getElem?_map, Option.map_some, List.map_set]
          rw [erase_set w p h]
      · simp [ht] at h

/-! ### The memory -/

/-- What is stored at an address. -/
def rd (f : Nat → Val Nat) (a : Addr) : Option (Val Nat) := (f a.1).get a.2

/-- The addresses have no part in common. -/
def Disj (a b : Addr) : Prop := a.1 ≠ b.1 ∨ Div a.2 b.2

theorem Disj.symm {a b : Addr} (h : Disj a b) : Disj b a :=
  h.imp Ne.symm Div.symm

theorem Disj.sub_right {a b : Addr} (h : Disj a b) (q) : Disj a (b.sub q) :=
  h.imp id (Div.append_right q)

theorem Disj.sub_left {a b : Addr} (h : Disj a b) (q) : Disj (a.sub q) b :=
  (h.symm.sub_right q).symm

/-- The same contents of all cells below a bound. -/
def EqOn (n : Nat) (f g : Nat → Val Nat) : Prop := ∀ c < n, f c = g c

theorem EqOn.trans {n : Nat} {f g h : Nat → Val Nat} (h₁ : EqOn n f g) (h₂ : EqOn n g h) :
    EqOn n f h := fun c hc => (h₁ c hc).trans (h₂ c hc)

theorem EqOn.symm {n : Nat} {f g : Nat → Val Nat} (h₁ : EqOn n f g) : EqOn n g f :=
  fun c hc => (h₁ c hc).symm

theorem EqOn.mono {n k : Nat} {f g : Nat → Val Nat} (h₁ : EqOn n f g) (h : k ≤ n) : EqOn k f g :=
  fun c hc => h₁ c (hc.trans_le h)

theorem EqOn.write {n : Nat} {f g : Nat → Val Nat} (h : EqOn n f g) (a : Addr) (w : Val Nat) :
    EqOn n (writeCells f a w) (writeCells g a w) := by
  intro c hc
  simp only [writeCells, h c hc]

theorem EqOn.rd {n : Nat} {f g : Nat → Val Nat} (h : EqOn n f g) {a : Addr} (ha : a.1 < n) :
    rd f a = rd g a := by
  simp only [ValueSem.rd, h _ ha]

theorem rd_sub (f : Nat → Val Nat) (a : Addr) (q) :
    rd f (a.sub q) = (rd f a).bind (fun u => u.get q) := get_append q a.2 _

theorem rd_write_disj {f : Nat → Val Nat} {a b : Addr} {w : Val Nat} (h : Disj a b) :
    rd (writeCells f a w) b = rd f b := by
  simp only [rd, writeCells]
  by_cases hc : b.1 = a.1
  · rw [if_pos hc]
    exact get_set_div w _ (h.resolve_left (fun h' => h' hc.symm))
  · rw [if_neg hc]

theorem rd_write_self {f : Nat → Val Nat} {a : Addr} {u w : Val Nat} (h : rd f a = some u) :
    rd (writeCells f a w) a = some w := by
  simp only [rd, writeCells, if_true]
  exact get_set_self h

theorem rd_write_sub (f : Nat → Val Nat) (a : Addr) (q) (w : Val Nat) :
    rd (writeCells f (a.sub q) w) a = (rd f a).map (fun u => u.set q w) := by
  simp only [rd, writeCells, Addr.sub, if_true]
  exact get_set_append q w a.2 _

theorem write_comm {f : Nat → Val Nat} {a b : Addr} (v w : Val Nat) (h : Disj a b) :
    writeCells (writeCells f a v) b w = writeCells (writeCells f b w) a v := by
  funext c
  simp only [writeCells]
  by_cases ha : c = a.1
  · by_cases hb : c = b.1
    · simp only [if_pos ha, if_pos hb]
      exact set_set_div v w _ (h.resolve_left (fun h' => h' (ha.symm.trans hb)))
    · simp only [if_pos ha, if_neg hb]
  · by_cases hb : c = b.1
    · simp only [if_neg ha, if_pos hb]
    · simp only [if_neg ha, if_neg hb]

theorem write_absorb (f : Nat → Val Nat) (a : Addr) (r) (w z : Val Nat) :
    writeCells (writeCells f (a.sub r) w) a z = writeCells f a z := by
  funext c
  simp only [writeCells, Addr.sub]
  by_cases hc : c = a.1
  · simp only [hc, if_true]
    exact set_absorb r w z a.2 _
  · simp only [hc, if_false]

theorem sub_nil (a : Addr) : a.sub [] = a := by simp [Addr.sub]

theorem write_write (f : Nat → Val Nat) (a : Addr) (w z : Val Nat) :
    writeCells (writeCells f a w) a z = writeCells f a z := by
  have := write_absorb f a [] w z
  rwa [sub_nil] at this

theorem write_self {f : Nat → Val Nat} {a : Addr} {w : Val Nat} (h : rd f a = some w) :
    writeCells f a w = f := by
  funext c
  simp only [writeCells]
  split
  · next hc =>
    subst hc
    exact set_get_self _ _ _ h
  · rfl

/-! ### Memory up to some addresses -/

/-- Forgets what is stored at some addresses. -/
def wipe : List Addr → (Nat → Val Nat) → Nat → Val Nat
  | [], f => f
  | a :: L, f => wipe L (writeCells f a (.int 0))

theorem EqOn.wipe {n : Nat} : ∀ (L : List Addr) {f g : Nat → Val Nat}, EqOn n f g →
    EqOn n (wipe L f) (wipe L g)
  | [], _, _, h => h
  | a :: L, _, _, h => EqOn.wipe L (h.write a _)

theorem wipe_append (L L' : List Addr) : ∀ f, wipe (L ++ L') f = wipe L' (wipe L f) := by
  induction L with
  | nil => intro f; rfl
  | cons a L ih => intro f; exact ih _

theorem rd_wipe_disj {a : Addr} : ∀ {L : List Addr} {f : Nat → Val Nat}, (∀ b ∈ L, Disj b a) →
    rd (wipe L f) a = rd f a
  | [], _, _ => rfl
  | b :: L, f, h => by
    rw [wipe, rd_wipe_disj (fun c hc => h c (List.mem_cons_of_mem _ hc)),
      rd_write_disj (h b List.mem_cons_self)]

theorem wipe_write_disj {a : Addr} {w : Val Nat} : ∀ {L : List Addr} {f : Nat → Val Nat},
    (∀ b ∈ L, Disj b a) → wipe L (writeCells f a w) = writeCells (wipe L f) a w
  | [], _, _ => rfl
  | b :: L, f, h => by
    rw [wipe, wipe, write_comm _ _ (h b List.mem_cons_self).symm,
      wipe_write_disj (fun c hc => h c (List.mem_cons_of_mem _ hc))]

theorem wipe_under {A : Addr} {r} {w : Val Nat} : ∀ {L : List Addr} {f : Nat → Val Nat},
    L.Pairwise Disj → A ∈ L → wipe L (writeCells f (A.sub r) w) = wipe L f
  | [], _, _, h => by cases h
  | b :: L, f, hp, h => by
    obtain ⟨hb, hp⟩ := List.pairwise_cons.mp hp
    rw [wipe, wipe]
    rcases List.mem_cons.mp h with rfl | h
    · rw [write_absorb]
    · rw [write_comm _ _ ((hb A h).sub_right r).symm]
      exact wipe_under hp h

theorem wipe_unders {L : List Addr} (hp : L.Pairwise Disj) : ∀ {L' : List Addr}
    {f : Nat → Val Nat}, (∀ b ∈ L', ∃ A ∈ L, ∃ r, b = A.sub r) → wipe L (wipe L' f) = wipe L f
  | [], _, _ => rfl
  | b :: L', f, h => by
    obtain ⟨A, hA, r, rfl⟩ := h b List.mem_cons_self
    rw [wipe, wipe_unders hp (fun c hc => h c (List.mem_cons_of_mem _ hc)), wipe_under hp hA]

/-- Copies what `f'` has at the mutable addresses. -/
def back (f' : Nat → Val Nat) : List (Bool × Addr) → (Nat → Val Nat) → Nat → Val Nat
  | [], f => f
  | (true, a) :: L, f => back f' L (writeCells f a ((rd f' a).getD (.int 0)))
  | (false, _) :: L, f => back f' L f

/-- The mutable addresses. -/
def mutAddrs : List (Bool × Addr) → List Addr
  | [] => []
  | (true, a) :: L => a :: mutAddrs L
  | (false, _) :: L => mutAddrs L

theorem mem_mutAddrs {a : Addr} : ∀ {L : List (Bool × Addr)}, a ∈ mutAddrs L ↔ (true, a) ∈ L
  | [] => by simp [mutAddrs]
  | (true, b) :: L => by simp [mutAddrs, mem_mutAddrs (L := L)]
  | (false, b) :: L => by simp [mutAddrs, mem_mutAddrs (L := L)]

theorem mutAddrs_append : ∀ L L' : List (Bool × Addr),
    mutAddrs (L ++ L') = mutAddrs L ++ mutAddrs L'
  | [], _ => rfl
  | (true, b) :: L, L' => by simp [mutAddrs, mutAddrs_append L L']
  | (false, b) :: L, L' => by simp [mutAddrs, mutAddrs_append L L']

/-- A mutable name shares nothing with another name. -/
def Apart (b c : Bool × Addr) : Prop := b.1 = true ∨ c.1 = true → Disj b.2 c.2

theorem Apart.symm {b c : Bool × Addr} (h : Apart b c) : Apart c b := fun h' => (h h'.symm).symm

theorem pairwise_mutAddrs : ∀ {L : List (Bool × Addr)}, L.Pairwise Apart →
    (mutAddrs L).Pairwise Disj
  | [], _ => List.Pairwise.nil
  | (true, b) :: L, h => by
    obtain ⟨hb, h⟩ := List.pairwise_cons.mp h
    refine List.pairwise_cons.mpr ⟨fun a ha => hb _ (mem_mutAddrs.mp ha) (Or.inl rfl),
      pairwise_mutAddrs h⟩
  | (false, b) :: L, h => by
    rw [mutAddrs]
    exact pairwise_mutAddrs (List.pairwise_cons.mp h).2

theorem back_write_disj {f' : Nat → Val Nat} {a : Addr} {w : Val Nat} :
    ∀ {L : List (Bool × Addr)} {f : Nat → Val Nat}, (∀ b ∈ mutAddrs L, Disj b a) →
      back f' L (writeCells f a w) = writeCells (back f' L f) a w
  | [], _, _ => rfl
  | (true, b) :: L, f, h => by
    rw [back, back, write_comm _ _ (h b List.mem_cons_self).symm,
      back_write_disj (fun c hc => h c (List.mem_cons_of_mem _ hc))]
  | (false, b) :: L, f, h => by
    rw [back, back]
    exact back_write_disj h

theorem back_congr {f' f'' : Nat → Val Nat} : ∀ {L : List (Bool × Addr)} {f : Nat → Val Nat},
    (∀ b ∈ mutAddrs L, rd f' b = rd f'' b) → back f' L f = back f'' L f
  | [], _, _ => rfl
  | (true, b) :: L, f, h => by
    rw [back, back, h b List.mem_cons_self]
    exact back_congr (fun c hc => h c (List.mem_cons_of_mem _ hc))
  | (false, b) :: L, f, h => by
    rw [back, back]
    exact back_congr h

/-- Two memories which agree up to some separate addresses differ only in what they have there. -/
theorem restore {n : Nat} : ∀ {L : List (Bool × Addr)} {f f' : Nat → Val Nat},
    L.Pairwise Apart → (∀ b ∈ mutAddrs L, (rd f' b).isSome) →
    EqOn n (wipe (mutAddrs L) f') (wipe (mutAddrs L) f) → EqOn n f' (back f' L f)
  | [], _, _, _, _, h => h
  | (false, b) :: L, f, f', hp, hs, h => by
    rw [back]
    exact restore (List.pairwise_cons.mp hp).2 hs h
  | (true, a) :: L, f, f', hp, hs, h => by
    obtain ⟨ha, hp⟩ := List.pairwise_cons.mp hp
    have hd : ∀ b ∈ mutAddrs L, Disj a b := fun b hb => ha _ (mem_mutAddrs.mp hb) (Or.inl rfl)
    have ih := restore (n := n) (L := L) (f := writeCells f a (.int 0))
      (f' := writeCells f' a (.int 0)) hp
      (fun b hb => by
        rw [rd_write_disj (hd b hb)]
        exact hs b (List.mem_cons_of_mem _ hb)) h
    rw [back_congr (f'' := f') (fun b hb => rd_write_disj (hd b hb)),
      back_write_disj (fun b hb => (hd b hb).symm)] at ih
    obtain ⟨w, hw⟩ := Option.isSome_iff_exists.mp (hs a List.mem_cons_self)
    have := ih.write a w
    rw [write_write, write_write, write_self hw] at this
    rw [back, hw, Option.getD_some, back_write_disj (fun b hb => (hd b hb).symm)]
    exact this

end Ferlium.ValueSem
