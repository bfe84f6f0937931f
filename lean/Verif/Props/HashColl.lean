import Verif.Proofs.HashColl
import Mathlib.Data.List.Perm.Subperm
import Mathlib.Data.List.Forall2

/-!
Hash maps and sets (C09-C12).  The specification side of every statement is about the insertion history only:
`lastWrite` (the most recent pair with an equal key) and `IsDistinctCount` (number of classes of equal keys).
`K` and `V` are arbitrary types, `eq`/`h` an arbitrary lawful equality and hash (constant hashes included).
-/
namespace Ferlium.HColl.Props
open Ferlium.HColl

variable {K V : Type} {eq : K → K → Bool} {h : K → BitVec 64}

/-! ### Specification -/

/-- The value of the last pair of the history whose key equals `q`. -/
def lastWrite (eq : K → K → Bool) (ops : List (K × V)) (q : K) : Option V :=
  (ops.reverse.find? (fun p => eq p.1 q)).map Prod.snd

/-- `n` is the number of classes of equal keys in `ks`. -/
def IsDistinctCount (eq : K → K → Bool) (ks : List K) (n : Nat) : Prop :=
  ∃ reps : List K, reps.length = n ∧ reps.Pairwise (fun a b => eq a b = false) ∧
    (∀ r ∈ reps, r ∈ ks) ∧ (∀ k ∈ ks, ∃ r ∈ reps, eq r k = true)

/-- Two optional values are both absent or both present and equal. -/
def SameOpt (eqV : V → V → Bool) : Option V → Option V → Prop
  | none, none => True
  | some a, some b => eqV a b = true
  | _, _ => False

/-! ### Histories -/

theorem lastWrite_cons (k : K) (v : V) (ops : List (K × V)) (q : K) :
    lastWrite eq ((k, v) :: ops) q = (lastWrite eq ops q).or (if eq k q then some v else none) := by
  unfold lastWrite
  rw [List.reverse_cons, List.find?_append]
  cases ops.reverse.find? (fun p => eq p.1 q) with
  | some x => rfl
  | none => simp [List.find?_cons]; cases eq k q <;> rfl

theorem lastWrite_isSome (ops : List (K × V)) (q : K) :
    (lastWrite eq ops q).isSome = true ↔ ∃ k ∈ ops.map Prod.fst, eq k q = true := by
  unfold lastWrite
  rw [Option.isSome_map, List.find?_isSome]
  simp only [List.mem_reverse, List.mem_map]
  constructor
  · rintro ⟨p, hp, he⟩; exact ⟨p.1, ⟨p, hp, rfl⟩, he⟩
  · rintro ⟨_, ⟨p, hp, rfl⟩, he⟩; exact ⟨p, hp, he⟩

theorem map_run (L : LawfulKey eq h) (ops : List (K × V)) :
    ∀ c : Coll K V, WF eq h c → ∃ c', mapInsertAll eq h c ops = some c' ∧ WF eq h c' ∧
      (∀ q, mapGet eq h c' q = match lastWrite eq ops q with
        | some v => some (some v)
        | none => mapGet eq h c q) ∧
      (∀ e ∈ items c'.buckets, e ∈ items c.buckets ∨ (e.key, e.value) ∈ ops) := by
  induction ops with
  | nil => intro c w; exact ⟨c, rfl, w, fun q => rfl, fun e he => Or.inl he⟩
  | cons op ops ih =>
    obtain ⟨k, v⟩ := op
    intro c w
    obtain ⟨c1, old, h1, w1, _, _, hget, _, hmem⟩ := mapInsert_spec L w k v
    obtain ⟨c2, h2, w2, hget2, hmem2⟩ := ih c1 w1
    refine ⟨c2, ?_, w2, ?_, ?_⟩
    · simp only [mapInsertAll, h1]; exact h2
    · intro q
      rw [hget2 q, lastWrite_cons]
      cases lastWrite eq ops q with
      | some x => rfl
      | none =>
        simp only [Option.none_or]
        rw [hget q]
        cases eq k q <;> rfl
    · intro e he
      rcases hmem2 e he with hm | hm
      · rcases hmem e hm with rfl | hm'
        · right; simp
        · exact Or.inl hm'
      · right; exact List.mem_cons_of_mem _ hm

theorem set_run (L : LawfulKey eq h) (ops : List K) :
    ∀ c : Coll K Unit, WF eq h c → ∃ c', setInsertAll eq h c ops = some c' ∧ WF eq h c' ∧
      (∀ q, setContains eq h c' q = if ops.any (fun k => eq k q) then some true else setContains eq h c q) ∧
      (∀ e ∈ items c'.buckets, e ∈ items c.buckets ∨ e.key ∈ ops) := by
  induction ops with
  | nil => intro c w; exact ⟨c, rfl, w, fun q => rfl, fun e he => Or.inl he⟩
  | cons k ops ih =>
    intro c w
    obtain ⟨c1, new, h1, w1, _, _, hget, hmem⟩ := setInsert_spec L w k
    obtain ⟨c2, h2, w2, hget2, hmem2⟩ := ih c1 w1
    refine ⟨c2, ?_, w2, ?_, ?_⟩
    · simp only [setInsertAll, h1]; exact h2
    · intro q
      rw [hget2 q, hget q, List.any_cons]
      cases eq k q <;> cases ops.any (fun k => eq k q) <;> rfl
    · intro e he
      rcases hmem2 e he with hm | hm
      · rcases hmem e hm with rfl | hm'
        · right; simp
        · exact Or.inl hm'
      · right; exact List.mem_cons_of_mem _ hm

theorem mapGet_new (q : K) : mapGet eq h (Coll.new : Coll K V) q = some none := rfl

theorem setContains_new (q : K) : setContains eq h (Coll.new : Coll K Unit) q = some false := rfl

theorem find_mem_iff (L : LawfulKey eq h) {c : Coll K V} (w : WF eq h c) (q : K) (v : V) :
    (∃ k, (k, v) ∈ toItems c ∧ eq k q = true) ↔ mapGet eq h c q = some (some v) := by
  rw [mapGet_eq L w, toItems_eq]
  simp only [List.mem_map, Prod.mk.injEq]
  constructor
  · rintro ⟨k, ⟨e, he, rfl, rfl⟩, hk⟩
    rw [find_of_mem L w.distinct he hk]; rfl
  · intro hf
    simp only [Option.some.injEq, Option.map_eq_some_iff] at hf
    obtain ⟨e, he, rfl⟩ := hf
    have := List.find?_some he
    exact ⟨e.key, ⟨e, List.mem_of_find?_eq_some he, rfl, rfl⟩, this⟩

theorem toItems_pairwise {c : Coll K V} (w : WF eq h c) :
    ((toItems c).map Prod.fst).Pairwise (fun a b => eq a b = false) := by
  rw [toItems_eq, List.map_map, List.pairwise_map]
  exact w.distinct

theorem map_state (L : LawfulKey eq h) (ops : List (K × V)) :
    ∃ c, mapInsertAll eq h Coll.new ops = some c ∧ WF eq h c ∧
      (∀ q, mapGet eq h c q = some (lastWrite eq ops q)) ∧
      (∀ e ∈ items c.buckets, (e.key, e.value) ∈ ops) := by
  obtain ⟨c, hc, w, hget, hmem⟩ := map_run L ops (Coll.new : Coll K V) wf_new
  refine ⟨c, hc, w, ?_, ?_⟩
  · intro q
    rw [hget q]
    cases lastWrite eq ops q with
    | some v => rfl
    | none => rfl
  · intro e he
    rcases hmem e he with hm | hm
    · cases hm
    · exact hm

/-- **C09.** Hash map as a finite map, for every insertion history from the empty map. -/
theorem C09_map_refines_history (L : LawfulKey eq h) (ops : List (K × V)) :
    ∃ c, mapInsertAll eq h Coll.new ops = some c ∧
      -- lookup: last write wins
      (∀ q, mapGet eq h c q = some (lastWrite eq ops q)) ∧
      -- insert returns what it replaces, and the next state obeys the same spec
      (∀ k v, ∃ c', mapInsert eq h c k v = some (c', lastWrite eq ops k) ∧
        mapInsertAll eq h Coll.new (ops ++ [(k, v)]) = some c') ∧
      -- length: number of distinct keys
      IsDistinctCount eq (ops.map Prod.fst) c.len ∧
      -- iteration: `len` items with pairwise different keys, each with its current value, none missing
      (toItems c).length = c.len ∧
      ((toItems c).map Prod.fst).Pairwise (fun a b => eq a b = false) ∧
      (∀ q v, (∃ k, (k, v) ∈ toItems c ∧ eq k q = true) ↔ lastWrite eq ops q = some v) := by
  obtain ⟨c, hc, w, hget, hmem⟩ := map_state L ops
  have hlen : (toItems c).length = c.len := by rw [toItems_eq, List.length_map, w.len]
  have hpw := toItems_pairwise w
  have hiff : ∀ q v, (∃ k, (k, v) ∈ toItems c ∧ eq k q = true) ↔ lastWrite eq ops q = some v := by
    intro q v
    rw [find_mem_iff L w q v, hget q, Option.some.injEq]
  refine ⟨c, hc, hget, ?_, ?_, hlen, hpw, hiff⟩
  · intro k v
    obtain ⟨c', old, h1, _, h3, _⟩ := mapInsert_spec L w k v
    rw [hget k] at h3
    cases h3
    refine ⟨c', h1, ?_⟩
    have app : ∀ (l : List (K × V)) (c0 : Coll K V), mapInsertAll eq h c0 l = some c →
        mapInsertAll eq h c0 (l ++ [(k, v)]) = some c' := by
      intro l
      induction l with
      | nil => intro c0 h0; cases h0; simp [mapInsertAll, h1]
      | cons x l ih =>
        intro c0 h0
        obtain ⟨a, b⟩ := x
        simp only [mapInsertAll, List.cons_append] at h0 ⊢
        cases hm : mapInsert eq h c0 a b with
        | none => rw [hm] at h0; cases h0
        | some r => rw [hm] at h0; simp only at h0 ⊢; exact ih _ h0
    exact app ops _ hc
  · refine ⟨(toItems c).map Prod.fst, by rw [List.length_map, hlen], hpw, ?_, ?_⟩
    · intro r hr
      rw [toItems_eq] at hr
      simp only [List.map_map, List.mem_map] at hr
      obtain ⟨e, he, rfl⟩ := hr
      exact List.mem_map.mpr ⟨_, hmem e he, rfl⟩
    · intro k hk
      have : (lastWrite eq ops k).isSome = true := (lastWrite_isSome ops k).mpr ⟨k, hk, L.refl k⟩
      obtain ⟨v, hv⟩ := Option.isSome_iff_exists.mp this
      obtain ⟨r, hr, hrk⟩ := (hiff k v).mpr hv
      exact ⟨r, List.mem_map.mpr ⟨_, hr, rfl⟩, hrk⟩

/-- **C10.** Hash set, for every insertion history from the empty set. -/
theorem C10_set_refines_history (L : LawfulKey eq h) (ops : List K) :
    ∃ c, setInsertAll eq h Coll.new ops = some c ∧
      (∀ q, ∃ b, setContains eq h c q = some b ∧ (b = true ↔ ∃ k ∈ ops, eq k q = true)) ∧
      (∀ k, ∃ c' new, setInsert eq h c k = some (c', new) ∧ (new = true ↔ ∀ x ∈ ops, eq x k = false) ∧
        setInsertAll eq h Coll.new (ops ++ [k]) = some c') ∧
      IsDistinctCount eq ops c.len ∧
      (toItems c).length = c.len ∧
      ((toItems c).map Prod.fst).Pairwise (fun a b => eq a b = false) ∧
      (∀ x ∈ (toItems c).map Prod.fst, x ∈ ops) ∧
      (∀ k ∈ ops, ∃ x ∈ (toItems c).map Prod.fst, eq x k = true) := by
  obtain ⟨c, hc, w, hcon, hmem⟩ := set_run L ops (Coll.new : Coll K Unit) wf_new
  have hlen : (toItems c).length = c.len := by rw [toItems_eq, List.length_map, w.len]
  have hpw := toItems_pairwise w
  have hcon' : ∀ q, setContains eq h c q = some (ops.any (fun k => eq k q)) := by
    intro q; rw [hcon q, setContains_new]; cases ops.any (fun k => eq k q) <;> rfl
  have hin : ∀ x ∈ (toItems c).map Prod.fst, x ∈ ops := by
    intro x hx
    rw [toItems_eq] at hx
    simp only [List.map_map, List.mem_map] at hx
    obtain ⟨e, he, rfl⟩ := hx
    rcases hmem e he with hm | hm
    · cases hm
    · exact hm
  have hall : ∀ k ∈ ops, ∃ x ∈ (toItems c).map Prod.fst, eq x k = true := by
    intro k hk
    have h1 := hcon' k
    rw [setContains_eq L w] at h1
    have h2 : ops.any (fun x => eq x k) = true := List.any_eq_true.mpr ⟨k, hk, L.refl k⟩
    rw [h2] at h1
    simp only [Option.some.injEq] at h1
    obtain ⟨e, he, hek⟩ := List.any_eq_true.mp h1
    refine ⟨e.key, ?_, hek⟩
    rw [toItems_eq]
    simp only [List.map_map, List.mem_map]
    exact ⟨e, he, rfl⟩
  refine ⟨c, hc, ?_, ?_, ⟨_, by rw [List.length_map, hlen], hpw, hin, hall⟩, hlen, hpw, hin, hall⟩
  · intro q
    refine ⟨_, hcon' q, ?_⟩
    rw [List.any_eq_true]
  · intro k
    obtain ⟨c', new, h1, _, h3, _⟩ := setInsert_spec L w k
    refine ⟨c', new, h1, ?_, ?_⟩
    · rw [hcon' k] at h3
      simp only [Option.some.injEq] at h3
      constructor
      · rintro rfl x hx
        simp only [Bool.not_true, List.any_eq_false] at h3
        simpa using h3 x hx
      · intro hno
        have : ops.any (fun x => eq x k) = false := by
          rw [List.any_eq_false]; intro x hx; rw [hno x hx]; simp
        rw [this] at h3
        cases new
        · cases h3
        · rfl
    · have app : ∀ (l : List K) (c0 : Coll K Unit), setInsertAll eq h c0 l = some c →
          setInsertAll eq h c0 (l ++ [k]) = some c' := by
        intro l
        induction l with
        | nil => intro c0 h0; cases h0; simp [setInsertAll, h1]
        | cons x l ih =>
          intro c0 h0
          simp only [setInsertAll, List.cons_append] at h0 ⊢
          cases hm : setInsert eq h c0 x with
          | none => rw [hm] at h0; cases h0
          | some r => rw [hm] at h0; simp only at h0 ⊢; exact ih _ h0
      exact app ops _ hc

/-! ### C11: shape of the table and length of probe sequences -/

/-- Where a probe for key `q` looks at its `j`-th step. -/
def probePos (hash : BitVec 64) (cap j : Nat) : Nat := (hash.toNat + j) % cap

theorem probe_stops {c : Coll K V} (w : WF eq h c) (hne : c.buckets ≠ []) (q : K) :
    ∃ j, j < c.buckets.length ∧
      (c.buckets[probePos (h q) c.buckets.length j]? = some none ∨
        ∃ e, c.buckets[probePos (h q) c.buckets.length j]? = some (some e) ∧ eq e.key q = true) ∧
      (∀ j' < j, ∃ e, c.buckets[probePos (h q) c.buckets.length j']? = some (some e) ∧ eq e.key q = false) := by
  rcases w.good with hn | ⟨G, h8, hload⟩
  · exact absurd hn hne
  · have hroom : (items c.buckets).length < c.buckets.length := by rw [← w.len]; omega
    obtain ⟨i0, hi0, hb0⟩ := exists_empty hroom
    obtain ⟨j0, hj0, hji0⟩ := mod_reach c.buckets.length (h q).toNat i0 hi0
    let P : Nat → Prop := fun j => c.buckets[probePos (h q) c.buckets.length j]? = some none ∨
        ∃ e, c.buckets[probePos (h q) c.buckets.length j]? = some (some e) ∧ eq e.key q = true
    have hex : ∃ j, P j := ⟨j0, Or.inl (by unfold probePos; rw [hji0]; exact hb0)⟩
    classical
    refine ⟨Nat.find hex, ?_, Nat.find_spec hex, ?_⟩
    · exact Nat.lt_of_le_of_lt (Nat.find_min' hex (Or.inl (by unfold probePos; rw [hji0]; exact hb0))) hj0
    · intro j' hj'
      have hn := Nat.find_min hex hj'
      have hlt : probePos (h q) c.buckets.length j' < c.buckets.length := Nat.mod_lt _ (by omega)
      simp only [P] at hn
      push Not at hn
      cases hb : c.buckets[probePos (h q) c.buckets.length j'] with
      | none => exact absurd (by rw [List.getElem?_eq_getElem hlt, hb]) hn.1
      | some e =>
        have hs : c.buckets[probePos (h q) c.buckets.length j']? = some (some e) := by
          rw [List.getElem?_eq_getElem hlt, hb]
        refine ⟨e, hs, ?_⟩
        have := hn.2 e hs
        simpa using this

/-- Number of free slots. -/
def freeSlots (b : Buckets K V) : Nat := b.countP (fun o => o.isNone)

theorem freeSlots_add (b : Buckets K V) : freeSlots b + (items b).length = b.length := by
  induction b with
  | nil => rfl
  | cons o b ih =>
    cases o with
    | none =>
      have h1 : freeSlots (none :: b) = freeSlots b + 1 := by simp [freeSlots]
      have h2 : items (none :: b) = items b := rfl
      rw [h1, h2, List.length_cons]; omega
    | some e =>
      have h1 : freeSlots (some e :: b) = freeSlots b := by simp [freeSlots]
      have h2 : items (some e :: b) = e :: items b := rfl
      rw [h1, h2, List.length_cons, List.length_cons]; omega

theorem findLoop_fuel {b : Buckets K V} {n : Nat} (hc : b.length = 2 ^ n) {hash : BitVec 64} {key : K} (j : Nat) :
    ∀ r r' s, j < r → j < r' → stops eq b hash key ((s + j) % b.length) →
      findLoop eq b hash key r (s % b.length) = findLoop eq b hash key r' (s % b.length) := by
  induction j with
  | zero =>
    rintro (_ | r) (_ | r') s hr hr' hst
    · omega
    · omega
    · omega
    · rw [findLoop, findLoop]
      simp only [Nat.add_zero] at hst
      split
      · rfl
      · rename_i x hx; rw [hst x hx]; rfl
      · rfl
  | succ j ih =>
    rintro (_ | r) (_ | r') s hr hr' hst
    · omega
    · omega
    · omega
    · rw [findLoop, findLoop, nextIndex_mod hc, ih r r' (s + 1) (by omega) (by omega)
        (by rwa [show s + 1 + j = s + (j + 1) by omega])]

/-- **C11.** After any history the table is empty or has `2^n ≥ 8` slots of which more than a third are free; the
probe sequence of every key reaches a free slot or an equal key within `capacity` steps, all earlier slots being
occupied by other keys; the lookup's step counter is never what stops it; and the unbounded insertion loop
terminates for every key. -/
theorem C11_table_invariant (L : LawfulKey eq h) (ops : List (K × V)) :
    ∃ c, mapInsertAll eq h Coll.new ops = some c ∧
      ((c.buckets = [] ∧ ops = []) ∨
        ((∃ n, 3 ≤ n ∧ c.buckets.length = 2 ^ n) ∧ c.buckets.length < 3 * freeSlots c.buckets ∧
          ∀ q, (∃ j, j < c.buckets.length ∧
              (c.buckets[probePos (h q) c.buckets.length j]? = some none ∨
                ∃ e, c.buckets[probePos (h q) c.buckets.length j]? = some (some e) ∧ eq e.key q = true) ∧
              (∀ j' < j, ∃ e, c.buckets[probePos (h q) c.buckets.length j']? = some (some e) ∧
                eq e.key q = false)) ∧
            (∀ r, c.buckets.length ≤ r → findLoop eq c.buckets (h q) q r (bucketIndex (h q) c.buckets.length) =
              findIndex eq c.buckets (h q) q))) ∧
      (∀ k v, (mapInsert eq h c k v).isSome = true) := by
  obtain ⟨c, hc, w, hget, hmem⟩ := map_state L ops
  refine ⟨c, hc, ?_, ?_⟩
  · rcases w.good with hn | ⟨G, h8, hload⟩
    · left
      refine ⟨hn, ?_⟩
      cases ops with
      | nil => rfl
      | cons op ops =>
        exfalso
        have h1 := hget op.1
        rw [mapGet_eq L w, hn] at h1
        have h2 : (lastWrite eq (op :: ops) op.1).isSome = true :=
          (lastWrite_isSome _ _).mpr ⟨op.1, by simp, L.refl _⟩
        simp only [Option.some.injEq] at h1
        rw [← h1] at h2
        simp [items] at h2
    · right
      obtain ⟨n, hn⟩ := G.pow
      have hne : c.buckets ≠ [] := by intro h0; rw [h0] at h8; simp at h8
      refine ⟨⟨n, ?_, hn⟩, ?_, ?_⟩
      · by_contra hlt
        have : (2:Nat) ^ n ≤ 2 ^ 2 := Nat.pow_le_pow_right (by omega) (by omega)
        omega
      · have := freeSlots_add c.buckets
        rw [w.len] at hload
        omega
      · intro q
        obtain ⟨j, hj, hstop, hpre⟩ := probe_stops w hne q
        refine ⟨⟨j, hj, hstop, hpre⟩, ?_⟩
        intro r hr
        unfold findIndex
        rw [if_neg (by omega), bucketIndex_mod hn]
        apply findLoop_fuel hn j _ _ _ (by omega) hj
        intro x hx
        rcases hstop with hs | ⟨e, hs, hk⟩
        · unfold probePos at hs; rw [hs] at hx; cases hx
        · have hs' := hs
          unfold probePos at hs; rw [hs] at hx; cases hx
          simp only [hit, Bool.and_eq_true, beq_iff_eq]
          exact ⟨by rw [G.hashed _ _ hs']; exact L.hash _ _ hk, hk⟩
  · intro k v
    obtain ⟨c', old, h1, _⟩ := mapInsert_spec L w k v
    rw [h1]; rfl

/-! ### C12: equality and hash of collections -/

/-- Distinct keys matched one by one: the left list is matched with a sub-multiset of the right list. -/
theorem match_subperm (L : LawfulKey eq h) {W : Type} (R : Entry K V → Entry K W → Prop)
    (hR : ∀ a b, R a b → eq a.key b.key = true) (A : List (Entry K V)) :
    ∀ B : List (Entry K W), A.Pairwise (fun x y => eq x.key y.key = false) →
      (∀ a ∈ A, ∃ b ∈ B, R a b) → ∃ B', List.Forall₂ R A B' ∧ List.Subperm B' B := by
  induction A with
  | nil => intro B _ _; exact ⟨[], List.Forall₂.nil, List.nil_subperm⟩
  | cons a A ih =>
    intro B hd hall
    rw [List.pairwise_cons] at hd
    obtain ⟨b, hb, hab⟩ := hall a (by simp)
    obtain ⟨s, t, rfl⟩ := List.append_of_mem hb
    obtain ⟨B', hB', hsub⟩ := ih (s ++ t) hd.2 (by
      intro a' ha'
      obtain ⟨b', hb', hab'⟩ := hall a' (List.mem_cons_of_mem _ ha')
      refine ⟨b', ?_, hab'⟩
      simp only [List.mem_append, List.mem_cons] at hb' ⊢
      rcases hb' with h1 | rfl | h1
      · exact Or.inl h1
      · exfalso
        have h1 := hR _ _ hab
        have h2 := hR _ _ hab'
        have := L.trans _ _ _ h1 (L.symm _ _ h2)
        rw [hd.1 a' ha'] at this; cases this
      · exact Or.inr h1)
    refine ⟨b :: B', List.Forall₂.cons hab hB', ?_⟩
    exact ((List.subperm_cons b).mpr hsub).trans (List.perm_middle.symm.subperm)

theorem foldl_forall2 {α β : Type} (f : α → BitVec 64) (g : β → BitVec 64) (R : α → β → Prop)
    (hR : ∀ a b, R a b → f a = g b) {A : List α} {B : List β} (hAB : List.Forall₂ R A B) :
    ∀ u : UHasher, A.foldl (fun u x => u.add (f x)) u = B.foldl (fun u x => u.add (g x)) u := by
  induction hAB with
  | nil => intro u; rfl
  | cons hab _ ih => intro u; simp only [List.foldl_cons]; rw [hR _ _ hab]; exact ih _

/-- The two halves of C12 for arbitrary well-formed maps. -/
theorem map_eq_hash (L : LawfulKey eq h) (eqV : V → V → Bool) (symV : ∀ a b, eqV a b = true → eqV b a = true)
    {l r : Coll K V} (wl : WF eq h l) (wr : WF eq h r) :
    (∃ b, mapEq eq h eqV l r = some b ∧
      (b = true ↔ ∃ gl gr : K → Option V, (∀ q, mapGet eq h l q = some (gl q)) ∧
        (∀ q, mapGet eq h r q = some (gr q)) ∧ ∀ q, SameOpt eqV (gl q) (gr q))) ∧
    (∀ he : K × V → BitVec 64, (∀ k k' v v', eq k k' = true → eqV v v' = true → he (k, v) = he (k', v')) →
      mapEq eq h eqV l r = some true → collHash he l = collHash he r) := by
  let gl : K → Option V := fun q => ((items l.buckets).find? (fun e => eq e.key q)).map (·.value)
  let gr : K → Option V := fun q => ((items r.buckets).find? (fun e => eq e.key q)).map (·.value)
  have hgl : ∀ q, mapGet eq h l q = some (gl q) := fun q => mapGet_eq L wl q
  have hgr : ∀ q, mapGet eq h r q = some (gr q) := fun q => mapGet_eq L wr q
  let R : Entry K V → Entry K V → Prop := fun a b => eq a.key b.key = true ∧ eqV b.value a.value = true
  let p : K × V → Bool := fun x => match gr x.1 with | some v => eqV v x.2 | none => false
  have hgo : collEq.go (mapContainsKeyValue eq h eqV) r (toItems l) = some ((toItems l).all p) := by
    apply collEq_go
    intro x _
    unfold mapContainsKeyValue
    rw [hgr x.1]
    cases hx : gr x.1 <;> simp [p, hx]
  have hpR : ∀ a, p (a.key, a.value) = true ↔ ∃ b ∈ items r.buckets, R a b := by
    intro a
    constructor
    · intro hp
      simp only [p, gr] at hp
      cases hf : (items r.buckets).find? (fun e => eq e.key a.key) with
      | none => rw [hf] at hp; simp at hp
      | some e =>
        rw [hf] at hp
        have := List.find?_some hf
        exact ⟨e, List.mem_of_find?_eq_some hf, L.symm _ _ this, hp⟩
    · rintro ⟨b, hb, h1, h2⟩
      simp only [p, gr]
      rw [find_of_mem L wr.distinct hb (L.symm _ _ h1)]
      exact h2
  have hmatch : (toItems l).all p = true → ∃ B', List.Forall₂ R (items l.buckets) B' ∧
      List.Subperm B' (items r.buckets) := by
    intro hall
    apply match_subperm L R (fun a b hab => hab.1) _ _ wl.distinct
    intro a ha
    rw [toItems_eq, List.all_map, List.all_eq_true] at hall
    exact (hpR a).mp (hall a ha)
  have hperm : l.len = r.len → (toItems l).all p = true → ∃ B', List.Forall₂ R (items l.buckets) B' ∧
      List.Perm B' (items r.buckets) := by
    intro hlen hall
    obtain ⟨B', h1, h2⟩ := hmatch hall
    refine ⟨B', h1, h2.perm_of_length_le ?_⟩
    rw [← h1.length_eq, ← wl.len, ← wr.len, hlen]
  -- same contents give a sub-multiset in each direction
  have hself : ∀ a ∈ items l.buckets, gl a.key = some a.value := by
    intro a ha; simp only [gl]; rw [find_of_mem L wl.distinct ha (L.refl _)]; rfl
  have hselfr : ∀ a ∈ items r.buckets, gr a.key = some a.value := by
    intro a ha; simp only [gr]; rw [find_of_mem L wr.distinct ha (L.refl _)]; rfl
  refine ⟨?_, ?_⟩
  · unfold mapEq collEq
    by_cases hlen : l.len = r.len
    · rw [if_neg (by simpa using hlen), hgo]
      refine ⟨_, rfl, ?_⟩
      constructor
      · intro hall
        refine ⟨gl, gr, hgl, hgr, ?_⟩
        obtain ⟨B', h1, h2⟩ := hperm hlen hall
        intro q
        have hfr : (items r.buckets).find? (fun e => eq e.key q) = B'.find? (fun e => eq e.key q) :=
          items_find_perm L h2.symm wr.distinct q
        simp only [gl, gr, hfr]
        clear hfr h2
        generalize items l.buckets = A at h1
        induction h1 with
        | nil => simp [SameOpt]
        | @cons a b _ _ hab _ ih =>
          rw [List.find?_cons, List.find?_cons]
          have : eq a.key q = eq b.key q := L.congr hab.1 q
          rw [this]
          cases eq b.key q with
          | true => simp only [Option.map_some, SameOpt]; exact symV _ _ hab.2
          | false => exact ih
      · rintro ⟨gl', gr', h1, h2, h3⟩
        have e1 : gl' = gl := by funext q; have := h1 q; rw [hgl q] at this; simpa using this.symm
        have e2 : gr' = gr := by funext q; have := h2 q; rw [hgr q] at this; simpa using this.symm
        subst e1 e2
        rw [toItems_eq, List.all_map, List.all_eq_true]
        intro a ha
        have h4 := h3 a.key
        have h5 := hself a ha
        change p (a.key, a.value) = true
        simp only [p]
        cases hr : gr a.key with
        | none => rw [hr, h5] at h4; exact h4.elim
        | some v => rw [hr, h5] at h4; exact symV _ _ h4
    · rw [if_pos (by simpa using hlen)]
      refine ⟨false, rfl, by simp, ?_⟩
      rintro ⟨gl', gr', h1, h2, h3⟩
      exfalso
      apply hlen
      have e1 : gl' = gl := by funext q; have := h1 q; rw [hgl q] at this; simpa using this.symm
      have e2 : gr' = gr := by funext q; have := h2 q; rw [hgr q] at this; simpa using this.symm
      subst e1 e2
      have le : ∀ {c d : Coll K V} {gc gd : K → Option V}, WF eq h c →
          (∀ a ∈ items c.buckets, gc a.key = some a.value) →
          (∀ q, gd q = ((items d.buckets).find? (fun e => eq e.key q)).map (·.value)) →
          (∀ q, (gc q).isSome = true → (gd q).isSome = true) →
          (items c.buckets).length ≤ (items d.buckets).length := by
        intro c d gc gd wc hs hd hsame
        obtain ⟨B', hf, hsub⟩ := match_subperm L (fun a b : Entry K V => eq a.key b.key = true)
          (fun a b hab => hab) (items c.buckets) (items d.buckets) wc.distinct (by
            intro a ha
            have h5 := hsame a.key (by rw [hs a ha]; rfl)
            rw [hd, Option.isSome_map, List.find?_isSome] at h5
            obtain ⟨b, hb, hk⟩ := h5
            exact ⟨b, hb, L.symm _ _ hk⟩)
        rw [hf.length_eq]
        exact hsub.length_le
      rw [wl.len, wr.len]
      apply Nat.le_antisymm
      · refine le wl hself (fun q => rfl) ?_
        intro q hq
        have := h3 q
        obtain ⟨x, hx⟩ := Option.isSome_iff_exists.mp hq
        rw [hx] at this
        change (gr q).isSome = true
        cases hr : gr q with
        | none => rw [hr] at this; exact this.elim
        | some y => rfl
      · refine le wr hselfr (fun q => rfl) ?_
        intro q hq
        have := h3 q
        obtain ⟨x, hx⟩ := Option.isSome_iff_exists.mp hq
        rw [hx] at this
        change (gl q).isSome = true
        cases hr : gl q with
        | none => rw [hr] at this; exact this.elim
        | some y => rfl
  · intro he hhe heq
    unfold mapEq collEq at heq
    by_cases hlen : l.len = r.len
    · rw [if_neg (by simpa using hlen), hgo, Option.some.injEq] at heq
      obtain ⟨B', h1, h2⟩ := hperm hlen heq
      unfold collHash
      rw [hlen, toItems_eq, toItems_eq, List.foldl_map, List.foldl_map]
      congr 1
      rw [← foldl_add_perm (fun e : Entry K V => he (e.key, e.value)) h2]
      exact foldl_forall2 _ _ R (fun a b hab => hhe _ _ _ _ hab.1 (symV _ _ hab.2)) h1 _
    · rw [if_pos (by simpa using hlen)] at heq
      cases heq

/-- **C12 (maps).** For any two histories, the two maps compare equal exactly when every key has equal last
values in both histories, and then everything written to the hasher is equal too. -/
theorem C12_map_eq_hash (L : LawfulKey eq h) (eqV : V → V → Bool)
    (symV : ∀ a b, eqV a b = true → eqV b a = true) (ops₁ ops₂ : List (K × V)) :
    ∃ l r b, mapInsertAll eq h Coll.new ops₁ = some l ∧ mapInsertAll eq h Coll.new ops₂ = some r ∧
      mapEq eq h eqV l r = some b ∧
      (b = true ↔ ∀ q, SameOpt eqV (lastWrite eq ops₁ q) (lastWrite eq ops₂ q)) ∧
      (∀ he : K × V → BitVec 64, (∀ k k' v v', eq k k' = true → eqV v v' = true → he (k, v) = he (k', v')) →
        b = true → collHash he l = collHash he r) := by
  obtain ⟨l, hl, wl, hgl, _⟩ := map_state L ops₁
  obtain ⟨r, hr, wr, hgr, _⟩ := map_state L ops₂
  obtain ⟨⟨b, hb, hiff⟩, hhash⟩ := map_eq_hash L eqV symV wl wr
  refine ⟨l, r, b, hl, hr, hb, ?_, ?_⟩
  · rw [hiff]
    constructor
    · rintro ⟨gl, gr, h1, h2, h3⟩ q
      have e1 := h1 q; have e2 := h2 q
      rw [hgl q, Option.some.injEq] at e1
      rw [hgr q, Option.some.injEq] at e2
      rw [e1, e2]; exact h3 q
    · intro hs
      exact ⟨_, _, hgl, hgr, hs⟩
  · intro he hhe hbt
    exact hhash he hhe (by rw [hb, hbt])

/-- On sets (maps to `Unit`) the membership test is the key-value test of maps. -/
theorem setEq_eq_mapEq (L : LawfulKey eq h) {l r : Coll K Unit} (wr : WF eq h r) :
    setEq eq h l r = mapEq eq h (fun _ _ => true) l r := by
  unfold setEq mapEq
  have key : ∀ x : K × Unit, setContains eq h r x.1 = mapContainsKeyValue eq h (fun _ _ => true) r x := by
    intro x
    unfold setContains mapContainsKeyValue mapGet
    rcases wr.find L x.1 with ⟨i, e, h1, h2, _⟩ | ⟨h1, _⟩
    · simp only [h1, h2]
    · simp only [h1]
  unfold collEq
  split
  · rfl
  · have : ∀ items, collEq.go (fun c x => setContains eq h c x.1) r items =
        collEq.go (mapContainsKeyValue eq h (fun _ _ => true)) r items := by
      intro items
      induction items with
      | nil => rfl
      | cons x xs ih => rw [collEq.go, collEq.go, ih, key x]
    exact this _

/-- **C12 (sets).** For any two histories, the two sets compare equal exactly when they received the same values up
to equality, and then everything written to the hasher is equal too. -/
theorem C12_set_eq_hash (L : LawfulKey eq h) (ops₁ ops₂ : List K) :
    ∃ l r b, setInsertAll eq h Coll.new ops₁ = some l ∧ setInsertAll eq h Coll.new ops₂ = some r ∧
      setEq eq h l r = some b ∧
      (b = true ↔ ∀ q, (∃ k ∈ ops₁, eq k q = true) ↔ (∃ k ∈ ops₂, eq k q = true)) ∧
      (∀ he : K → BitVec 64, (∀ k k', eq k k' = true → he k = he k') →
        b = true → collHash (fun x => he x.1) l = collHash (fun x => he x.1) r) := by
  obtain ⟨l, hl, wl, hgl, _⟩ := set_run L ops₁ (Coll.new : Coll K Unit) wf_new
  obtain ⟨r, hr, wr, hgr, _⟩ := set_run L ops₂ (Coll.new : Coll K Unit) wf_new
  obtain ⟨⟨b, hb, hiff⟩, hhash⟩ := map_eq_hash L (fun _ _ => true) (fun _ _ _ => rfl) wl wr
  have get : ∀ {c : Coll K Unit} {ops : List K}, WF eq h c →
      (∀ q, setContains eq h c q = if ops.any (fun k => eq k q) then some true else
        setContains eq h (Coll.new : Coll K Unit) q) →
      ∀ q, mapGet eq h c q = some (if ops.any (fun k => eq k q) then some () else none) := by
    intro c ops w hc q
    have h1 := hc q
    rw [setContains_new, setContains_eq L w] at h1
    rw [mapGet_eq L w]
    cases hf : (items c.buckets).find? (fun e => eq e.key q) with
    | none =>
      have h2 : (items c.buckets).any (fun e => eq e.key q) = false := by
        rw [List.any_eq_false]; exact List.find?_eq_none.mp hf
      rw [h2] at h1
      cases ho : ops.any (fun k => eq k q) with
      | false => rfl
      | true => rw [ho] at h1; cases h1
    | some e =>
      have h2 : (items c.buckets).any (fun e => eq e.key q) = true := by
        rw [List.any_eq_true]
        exact ⟨e, List.mem_of_find?_eq_some hf, by have := List.find?_some hf; exact this⟩
      rw [h2] at h1
      cases ho : ops.any (fun k => eq k q) with
      | false => rw [ho] at h1; cases h1
      | true => rfl
  have hgl' := get wl hgl
  have hgr' := get wr hgr
  refine ⟨l, r, b, hl, hr, by rw [setEq_eq_mapEq L wr]; exact hb, ?_, ?_⟩
  · have tr : ∀ q, SameOpt (fun _ _ => true) (if ops₁.any (fun k => eq k q) then some () else none)
        (if ops₂.any (fun k => eq k q) then some () else none) ↔
        ((∃ k ∈ ops₁, eq k q = true) ↔ (∃ k ∈ ops₂, eq k q = true)) := by
      intro q
      rw [← List.any_eq_true, ← List.any_eq_true]
      cases ops₁.any (fun k => eq k q) <;> cases ops₂.any (fun k => eq k q) <;> simp [SameOpt]
    rw [hiff]
    constructor
    · rintro ⟨gl, gr, h1, h2, h3⟩ q
      have e1 := h1 q; have e2 := h2 q
      rw [hgl' q, Option.some.injEq] at e1
      rw [hgr' q, Option.some.injEq] at e2
      rw [← tr, e1, e2]; exact h3 q
    · intro hs
      exact ⟨_, _, hgl', hgr', fun q => (tr q).mpr (hs q)⟩
  · intro he hhe hbt
    exact hhash (fun x => he x.1) (fun k k' _ _ hk _ => hhe k k' hk) (by rw [hb, hbt])

/-! ### Non-vacuity -/

/-- A lawful key type where equality is coarser than identity and the hash is constant on many keys. -/
def exEq (a b : Nat) : Bool := a % 10 == b % 10
def exHash (a : Nat) : BitVec 64 := if a % 10 < 5 then 7 else 8

theorem exLawful : LawfulKey exEq exHash := by
  refine ⟨by simp [exEq], ?_, ?_, ?_⟩
  · intro a b; simp only [exEq, beq_iff_eq]; exact fun h => h.symm
  · intro a b c; simp only [exEq, beq_iff_eq]; exact fun h1 h2 => h1.trans h2
  · intro a b; simp only [exEq, exHash, beq_iff_eq]; intro h; rw [h]

example : ∃ c, mapInsertAll exEq exHash Coll.new [(1, "a"), (2, "b"), (11, "c")] = some c ∧
    mapGet exEq exHash c 21 = some (some "c") := by
  obtain ⟨c, h1, h2, _⟩ := C09_map_refines_history exLawful [(1, "a"), (2, "b"), (11, "c")]
  exact ⟨c, h1, by rw [h2]; decide⟩

example : ∃ c, setInsertAll exEq exHash Coll.new [1, 2, 11] = some c ∧ setContains exEq exHash c 3 = some false := by
  obtain ⟨c, h1, h2, _⟩ := C10_set_refines_history exLawful [1, 2, 11]
  refine ⟨c, h1, ?_⟩
  obtain ⟨b, hb, hiff⟩ := h2 3
  cases b with
  | false => exact hb
  | true => have := hiff.mp rfl; simp [exEq] at this

example : ∃ c, mapInsertAll exEq exHash Coll.new ((List.range 100).map fun i => (i, i)) = some c ∧ c.buckets ≠ [] := by
  obtain ⟨c, h1, h2, _⟩ := C11_table_invariant exLawful ((List.range 100).map fun i => (i, i))
  refine ⟨c, h1, ?_⟩
  rcases h2 with ⟨_, h0⟩ | ⟨⟨n, _, hn⟩, _⟩
  · have := congrArg List.length h0; simp at this
  · intro h0; rw [h0] at hn; have := Nat.two_pow_pos n; simp at hn; omega

example : ∃ l r, mapInsertAll exEq exHash Coll.new [(1, 5), (2, 6)] = some l ∧
    mapInsertAll exEq exHash Coll.new [(12, 6), (1, 0), (11, 5)] = some r ∧
    mapEq exEq exHash (fun a b : Nat => a == b) l r = some true := by
  obtain ⟨l, r, b, h1, h2, h3, h4, _⟩ := C12_map_eq_hash exLawful (fun a b : Nat => a == b)
    (by intro a b; simp only [beq_iff_eq]; exact fun h => h.symm) [(1, 5), (2, 6)] [(12, 6), (1, 0), (11, 5)]
  refine ⟨l, r, h1, h2, ?_⟩
  rw [h3, Option.some.injEq, h4]
  intro q
  simp only [lastWrite, exEq, List.reverse_cons, List.reverse_nil, List.nil_append, List.cons_append, List.find?_cons,
    List.find?_nil]
  by_cases h1 : 1 = q % 10
  · simp [← h1, SameOpt]
  · by_cases h2 : 2 = q % 10
    · simp [← h2, SameOpt]
    · have e1 : (1 == q % 10) = false := by simpa using h1
      have e2 : (2 == q % 10) = false := by simpa using h2
      simp [e1, e2, SameOpt]

example : ∃ l r, setInsertAll exEq exHash Coll.new [1, 2] = some l ∧
    setInsertAll exEq exHash Coll.new [2, 11, 1] = some r ∧ setEq exEq exHash l r = some true := by
  obtain ⟨l, r, b, h1, h2, h3, h4, _⟩ := C12_set_eq_hash exLawful [1, 2] [2, 11, 1]
  refine ⟨l, r, h1, h2, ?_⟩
  rw [h3, Option.some.injEq, h4]
  intro q
  simp only [exEq, List.mem_cons, List.not_mem_nil, or_false, exists_eq_or_imp, exists_eq_left]
  simp; tauto

end Ferlium.HColl.Props
