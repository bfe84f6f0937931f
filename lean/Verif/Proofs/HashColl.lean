import Verif.Model.HashColl
import Mathlib.Data.List.Perm.Basic
import Mathlib.Data.Nat.Find

/-! Helper lemmas for `Verif.Props.HashColl`. -/
namespace Ferlium.HColl

/-- Requirements on the user's `Value` implementation. -/
structure LawfulKey {K : Type} (eq : K → K → Bool) (h : K → BitVec 64) : Prop where
  refl : ∀ a, eq a a = true
  symm : ∀ a b, eq a b = true → eq b a = true
  trans : ∀ a b c, eq a b = true → eq b c = true → eq a c = true
  hash : ∀ a b, eq a b = true → h a = h b

variable {K V : Type} {eq : K → K → Bool} {h : K → BitVec 64}

theorem LawfulKey.comm (L : LawfulKey eq h) (a b : K) : eq a b = eq b a := by
  cases hab : eq a b with
  | true => exact (L.symm _ _ hab).symm
  | false =>
    cases hba : eq b a with
    | false => rfl
    | true => rw [L.symm _ _ hba] at hab; cases hab

theorem LawfulKey.congr (L : LawfulKey eq h) {a b : K} (hab : eq a b = true) (c : K) : eq a c = eq b c := by
  cases h1 : eq a c with
  | true => exact (L.trans _ _ _ (L.symm _ _ hab) h1).symm
  | false =>
    cases h2 : eq b c with
    | false => rfl
    | true => rw [L.trans _ _ _ hab h2] at h1; cases h1

/-! ### Index arithmetic -/

theorem and_mask {cap n : Nat} (hc : cap = 2 ^ n) (x : Nat) : x &&& (cap - 1) = x % cap := by
  subst hc; exact Nat.and_two_pow_sub_one_eq_mod x n

theorem nextIndex_mod {cap n : Nat} (hc : cap = 2 ^ n) (s : Nat) :
    nextIndex (s % cap) cap = (s + 1) % cap := by
  unfold nextIndex
  rw [and_mask hc, Nat.mod_add_mod]

theorem bucketIndex_mod {cap n : Nat} (hc : cap = 2 ^ n) (x : BitVec 64) :
    bucketIndex x cap = x.toNat % cap := and_mask hc _

theorem cap_pos {cap n : Nat} (hc : cap = 2 ^ n) : 0 < cap := by subst hc; exact Nat.two_pow_pos n

/-! ### The two probe loops -/

def items (b : Buckets K V) : List (Entry K V) := b.filterMap id

theorem mem_items {b : Buckets K V} {e : Entry K V} : e ∈ items b ↔ ∃ i : Nat, b[i]? = some (some e) := by
  unfold items
  rw [List.mem_filterMap]
  constructor
  · rintro ⟨o, ho, he⟩
    simp only [id] at he
    subst he
    exact List.getElem?_of_mem ho
  · rintro ⟨i, hi⟩
    exact ⟨some e, List.mem_of_getElem? hi, rfl⟩

/-- Probing position `i` ends the insertion loop. -/
def stops (eq : K → K → Bool) (b : Buckets K V) (hash : BitVec 64) (key : K) (i : Nat) : Prop :=
  ∀ x, b[i]? = some (some x) → hit eq x hash key = true

theorem insertLoop_eq {b : Buckets K V} {n : Nat} (hc : b.length = 2 ^ n) (e : Entry K V) (j : Nat) :
    ∀ s : Nat, (∀ j' < j, ¬ stops eq b e.hash e.key ((s + j') % b.length)) →
      stops eq b e.hash e.key ((s + j) % b.length) →
      insertLoop eq b e (s % b.length) = some (b.set ((s + j) % b.length) (some e)) := by
  induction j with
  | zero =>
    intro s _ hst
    have hlt : s % b.length < b.length := Nat.mod_lt _ (cap_pos hc)
    rw [insertLoop]
    simp only [Nat.add_zero] at hst ⊢
    have hx := hst
    unfold stops at hx
    rw [List.getElem?_eq_getElem hlt] at hx ⊢
    cases hb : b[s % b.length] with
    | none => rfl
    | some x => simp only [hb] at hx ⊢; simp [hx x rfl]
  | succ j ih =>
    intro s hno hst
    have h0 := hno 0 (Nat.succ_pos _)
    simp only [Nat.add_zero] at h0
    unfold stops at h0
    push Not at h0
    obtain ⟨x, hx, hne⟩ := h0
    rw [insertLoop]
    simp only [hx]
    rw [if_neg hne, nextIndex_mod hc]
    have := ih (s + 1) (fun j' hj' => by
      have := hno (j' + 1) (by omega)
      rwa [show s + (j' + 1) = s + 1 + j' by omega] at this)
      (by rwa [show s + (j + 1) = s + 1 + j by omega] at hst)
    rw [this, show s + 1 + j = s + (j + 1) by omega]

theorem findLoop_at {b : Buckets K V} {hash : BitVec 64} {key : K} (r : Nat) :
    ∀ i p, findLoop eq b hash key r i = .at p → ∃ x, b[p]? = some (some x) ∧ hit eq x hash key = true := by
  induction r with
  | zero => intro i p hf; simp [findLoop] at hf
  | succ r ih =>
    intro i p hf
    rw [findLoop] at hf
    split at hf
    · cases hf
    · rename_i x hx
      split at hf
      · rename_i hh
        cases hf
        exact ⟨x, hx, hh⟩
      · exact ih _ _ hf
    · cases hf

theorem findLoop_no_panic {b : Buckets K V} {n : Nat} (hc : b.length = 2 ^ n) {hash : BitVec 64} {key : K} (r : Nat) :
    ∀ s, findLoop eq b hash key r (s % b.length) ≠ .panic := by
  induction r with
  | zero => intro s; simp [findLoop]
  | succ r ih =>
    intro s
    rw [findLoop]
    have hlt : s % b.length < b.length := Nat.mod_lt _ (cap_pos hc)
    rw [List.getElem?_eq_getElem hlt]
    cases hb : b[s % b.length] with
    | none => simp
    | some x =>
      simp only
      split
      · simp
      · rw [nextIndex_mod hc]; exact ih _

theorem findLoop_hit {b : Buckets K V} {n : Nat} (hc : b.length = 2 ^ n) {hash : BitVec 64} {key : K} (j : Nat) :
    ∀ r s, j < r → (∀ j' < j, ∃ x, b[(s + j') % b.length]? = some (some x)) →
      (∃ x, b[(s + j) % b.length]? = some (some x) ∧ hit eq x hash key = true) →
      findLoop eq b hash key r (s % b.length) ≠ .no := by
  induction j with
  | zero =>
    rintro (_ | r) s hr _ ⟨x, hx, hh⟩
    · omega
    · rw [findLoop]
      simp only [Nat.add_zero] at hx
      simp [hx, hh]
  | succ j ih =>
    rintro (_ | r) s hr hsome hit
    · omega
    · rw [findLoop]
      obtain ⟨x, hx⟩ := hsome 0 (by omega)
      simp only [Nat.add_zero] at hx
      simp only [hx]
      split
      · simp
      · rw [nextIndex_mod hc]
        apply ih r (s + 1) (by omega)
        · intro j' hj'
          have := hsome (j' + 1) (by omega)
          rwa [show s + (j' + 1) = s + 1 + j' by omega] at this
        · rwa [show s + (j + 1) = s + 1 + j by omega] at hit

/-! ### Table invariant -/

structure Good (eq : K → K → Bool) (h : K → BitVec 64) (b : Buckets K V) : Prop where
  pow : ∃ n, b.length = 2 ^ n
  hashed : ∀ (i : Nat) e, b[i]? = some (some e) → e.hash = h e.key
  distinct : (items b).Pairwise (fun x y => eq x.key y.key = false)
  probe : ∀ (i : Nat) e, b[i]? = some (some e) →
    ∃ j, j < b.length ∧ (e.hash.toNat + j) % b.length = i ∧
      ∀ j' < j, ∃ x, b[(e.hash.toNat + j') % b.length]? = some (some x)

theorem findIndex_spec (L : LawfulKey eq h) {b : Buckets K V} (G : Good eq h b) (k : K) :
    (∃ i e, findIndex eq b (h k) k = .at i ∧ b[i]? = some (some e) ∧ eq e.key k = true) ∨
    (findIndex eq b (h k) k = .no ∧ ∀ e ∈ items b, eq e.key k = false) := by
  obtain ⟨n, hc⟩ := G.pow
  have hpos := cap_pos hc
  unfold findIndex
  rw [if_neg (by omega), bucketIndex_mod hc]
  cases hf : findLoop eq b (h k) k b.length ((h k).toNat % b.length) with
  | panic => exact absurd hf (findLoop_no_panic hc _ _)
  | «at» i =>
    left
    obtain ⟨x, hx, hh⟩ := findLoop_at _ _ _ hf
    refine ⟨i, x, rfl, hx, ?_⟩
    simp only [hit, Bool.and_eq_true] at hh
    exact hh.2
  | no =>
    right
    refine ⟨rfl, ?_⟩
    intro e he
    obtain ⟨i, hi⟩ := mem_items.mp he
    cases hek : eq e.key k with
    | false => rfl
    | true =>
      exfalso
      obtain ⟨j, hj, hji, hpre⟩ := G.probe i e hi
      have hh : e.hash = h k := by rw [G.hashed i e hi]; exact L.hash _ _ hek
      rw [hh] at hji hpre
      refine findLoop_hit hc j b.length (h k).toNat hj hpre ⟨e, ?_, ?_⟩ hf
      · rw [hji]; exact hi
      · simp [hit, hh, hek]

theorem items_set {b : Buckets K V} {i : Nat} (e : Entry K V) (hlt : i < b.length) :
    items (b.set i (some e)) = items (b.take i) ++ e :: items (b.drop (i + 1)) := by
  unfold items
  rw [List.set_eq_take_append_cons_drop, if_pos hlt, List.filterMap_append]
  rfl

theorem items_split {b : Buckets K V} {i : Nat} (hlt : i < b.length) :
    items b = items (b.take i) ++ (b[i].toList ++ items (b.drop (i + 1))) := by
  unfold items
  conv_lhs => rw [← List.take_append_drop i b, List.drop_eq_getElem_cons hlt, List.filterMap_append]
  congr 1
  cases hb : b[i] <;> simp

theorem items_set_none {b : Buckets K V} {i : Nat} (e : Entry K V) (hi : b[i]? = some none) :
    (items (b.set i (some e))).Perm (e :: items b) := by
  obtain ⟨hlt, hb⟩ := List.getElem?_eq_some_iff.mp hi
  rw [items_set e hlt, items_split hlt, hb]
  simp only [Option.toList_none, List.nil_append]
  exact List.perm_middle

theorem exists_empty {b : Buckets K V} (hlt : (items b).length < b.length) :
    ∃ i, i < b.length ∧ b[i]? = some none := by
  by_contra hno
  push Not at hno
  have : ∀ o ∈ b, o.isSome := by
    intro o ho
    obtain ⟨i, hi⟩ := List.getElem?_of_mem ho
    cases o with
    | some x => rfl
    | none => exact absurd hi (hno i (by
        rcases Nat.lt_or_ge i b.length with hl | hl
        · exact hl
        · rw [List.getElem?_eq_none hl] at hi; cases hi))
  have hl : (items b).length = b.length := by
    unfold items
    clear hlt hno
    induction b with
    | nil => rfl
    | cons o b ih =>
      cases o with
      | none => exact absurd (this none (by simp)) (by simp)
      | some x =>
        have := ih (fun o ho => this o (List.mem_cons_of_mem _ ho))
        have hx : List.filterMap id (some x :: b) = x :: List.filterMap id b := rfl
        rw [hx, List.length_cons, List.length_cons, this]
  omega

theorem mod_reach (cap s i : Nat) (hi : i < cap) : ∃ j, j < cap ∧ (s + j) % cap = i := by
  have hs : s % cap < cap := Nat.mod_lt _ (by omega)
  have key : ∀ j, (s + j) % cap = (s % cap + j) % cap := fun j => (Nat.mod_add_mod s cap j).symm
  rcases Nat.lt_or_ge i (s % cap) with hl | hl
  · refine ⟨cap - s % cap + i, by omega, ?_⟩
    rw [key, show s % cap + (cap - s % cap + i) = cap + i by omega, Nat.add_mod_left, Nat.mod_eq_of_lt hi]
  · refine ⟨i - s % cap, by omega, ?_⟩
    rw [key, show s % cap + (i - s % cap) = i by omega, Nat.mod_eq_of_lt hi]

theorem pairwise_perm (L : LawfulKey eq h) {l₁ l₂ : List (Entry K V)} (p : l₁.Perm l₂)
    (hp : l₁.Pairwise (fun x y => eq x.key y.key = false)) :
    l₂.Pairwise (fun x y => eq x.key y.key = false) :=
  (p.pairwise_iff (fun {a b} hab => by rw [L.comm]; exact hab)).mp hp

theorem insertEntry_spec (L : LawfulKey eq h) {b : Buckets K V} (G : Good eq h b) (e : Entry K V)
    (he : e.hash = h e.key) (hfresh : ∀ x ∈ items b, eq x.key e.key = false)
    (hroom : (items b).length < b.length) :
    ∃ b', insertEntry eq b e = some b' ∧ Good eq h b' ∧ b'.length = b.length ∧
      (items b').Perm (e :: items b) := by
  obtain ⟨n, hc⟩ := G.pow
  have hpos := cap_pos hc
  obtain ⟨i0, hi0, hb0⟩ := exists_empty hroom
  obtain ⟨j0, hj0, hji0⟩ := mod_reach b.length e.hash.toNat i0 hi0
  have hex : ∃ j, b[(e.hash.toNat + j) % b.length]? = some none := ⟨j0, by rw [hji0]; exact hb0⟩
  classical
  let j := Nat.find hex
  have hj : b[(e.hash.toNat + j) % b.length]? = some none := Nat.find_spec hex
  have hjlt : j < b.length := Nat.lt_of_le_of_lt (Nat.find_min' hex (by rw [hji0]; exact hb0)) hj0
  have hpre : ∀ j' < j, ∃ x, b[(e.hash.toNat + j') % b.length]? = some (some x) := by
    intro j' hj'
    have hn := Nat.find_min hex hj'
    have hlt : (e.hash.toNat + j') % b.length < b.length := Nat.mod_lt _ hpos
    rw [List.getElem?_eq_getElem hlt] at hn ⊢
    cases hb : b[(e.hash.toNat + j') % b.length] with
    | none => rw [hb] at hn; exact absurd rfl hn
    | some x => exact ⟨x, rfl⟩
  have hins : insertEntry eq b e = some (b.set ((e.hash.toNat + j) % b.length) (some e)) := by
    unfold insertEntry
    rw [bucketIndex_mod hc]
    apply insertLoop_eq hc e j
    · intro j' hj' hst
      obtain ⟨x, hx⟩ := hpre j' hj'
      have := hst x hx
      simp only [hit, Bool.and_eq_true] at this
      rw [hfresh x (mem_items.mpr ⟨_, hx⟩)] at this
      cases this.2
    · intro x hx; rw [hj] at hx; cases hx
  have hperm := items_set_none e hj
  refine ⟨_, hins, ?_, by simp, hperm⟩
  refine ⟨⟨n, by simpa using hc⟩, ?_, ?_, ?_⟩
  · intro i x hx
    rw [List.getElem?_set] at hx
    split at hx
    · split at hx
      · cases hx; exact he
      · cases hx
    · exact G.hashed i x hx
  · refine pairwise_perm L hperm.symm ?_
    rw [List.pairwise_cons]
    refine ⟨?_, G.distinct⟩
    intro x hx
    rw [L.comm]
    exact hfresh x hx
  · have keep : ∀ (p : Nat) x, b[p]? = some (some x) →
        ∃ y, (b.set ((e.hash.toNat + j) % b.length) (some e))[p]? = some (some y) := by
      intro p x hp
      rw [List.getElem?_set]
      split
      · exact ⟨e, by rw [if_pos]; exact Nat.mod_lt _ hpos⟩
      · exact ⟨x, hp⟩
    intro i x hx
    simp only [List.length_set]
    rw [List.getElem?_set] at hx
    split at hx
    · rename_i hpi
      split at hx
      · cases hx
        refine ⟨j, hjlt, hpi, ?_⟩
        intro j' hj'
        obtain ⟨y, hy⟩ := hpre j' hj'
        exact keep _ _ hy
      · cases hx
    · obtain ⟨jx, h1, h2, h3⟩ := G.probe i x hx
      refine ⟨jx, h1, h2, ?_⟩
      intro j' hj'
      obtain ⟨y, hy⟩ := h3 j' hj'
      exact keep _ _ hy

/-- Overwriting the entry at `i` by one whose key is equal keeps the table good. -/
theorem replace_spec (L : LawfulKey eq h) {b : Buckets K V} (G : Good eq h b) {i : Nat} {x : Entry K V}
    (hx : b[i]? = some (some x)) (e : Entry K V) (he : e.hash = h e.key) (hk : eq x.key e.key = true) :
    Good eq h (b.set i (some e)) := by
  obtain ⟨hlt, hb⟩ := List.getElem?_eq_some_iff.mp hx
  have hxe : x.hash = e.hash := by rw [G.hashed i x hx, he]; exact L.hash _ _ hk
  have keep : ∀ (p : Nat) y, b[p]? = some (some y) → ∃ z, (b.set i (some e))[p]? = some (some z) := by
    intro p y hp
    rw [List.getElem?_set]
    split
    · rename_i hip
      exact ⟨e, rfl⟩
    · exact ⟨y, hp⟩
  refine ⟨by simpa using G.pow, ?_, ?_, ?_⟩
  · intro p y hy
    rw [List.getElem?_set] at hy
    split at hy
    · cases hy; exact he
    · exact G.hashed p y hy
  · have hd := G.distinct
    rw [items_split hlt, hb] at hd
    rw [items_set e hlt]
    simp only [Option.toList_some, List.singleton_append] at hd
    rw [List.pairwise_append] at hd ⊢
    obtain ⟨d1, d2, d3⟩ := hd
    rw [List.pairwise_cons] at d2 ⊢
    refine ⟨d1, ⟨?_, d2.2⟩, ?_⟩
    · intro y hy
      rw [← L.congr hk]
      exact d2.1 y hy
    · intro a ha y hy
      rcases List.mem_cons.mp hy with rfl | hy'
      · have := d3 a ha x (by simp)
        rw [L.comm] at this ⊢
        rwa [L.congr hk] at this
      · exact d3 a ha y (List.mem_cons_of_mem _ hy')
  · intro p y hy
    simp only [List.length_set]
    rw [List.getElem?_set] at hy
    split at hy
    · rename_i hip
      cases hy
      obtain ⟨j, h1, h2, h3⟩ := G.probe i x hx
      rw [hxe] at h2 h3
      refine ⟨j, h1, by rw [h2, hip], ?_⟩
      intro j' hj'
      obtain ⟨z, hz⟩ := h3 j' hj'
      exact keep _ _ hz
    · obtain ⟨j, h1, h2, h3⟩ := G.probe p y hy
      refine ⟨j, h1, h2, ?_⟩
      intro j' hj'
      obtain ⟨z, hz⟩ := h3 j' hj'
      exact keep _ _ hz

theorem items_empty (cap : Nat) : items (emptyBuckets cap : Buckets K V) = [] := by
  unfold items emptyBuckets
  rw [List.filterMap_eq_nil_iff]
  intro o ho
  rw [List.eq_of_mem_replicate ho]; rfl

theorem empty_get {cap i : Nat} {e : Entry K V} : (emptyBuckets cap : Buckets K V)[i]? ≠ some (some e) := by
  intro hx
  have : e ∈ items (emptyBuckets cap : Buckets K V) := mem_items.mpr ⟨i, hx⟩
  rw [items_empty] at this; cases this

theorem good_empty (n : Nat) : Good eq h (emptyBuckets (2 ^ n) : Buckets K V) := by
  refine ⟨⟨n, by simp [emptyBuckets]⟩, ?_, ?_, ?_⟩
  · intro i e hi; exact absurd hi empty_get
  · rw [items_empty]; exact List.Pairwise.nil
  · intro i e hi; exact absurd hi empty_get

theorem rehashLoop_spec (L : LawfulKey eq h) (old : Buckets K V) :
    ∀ acc : Buckets K V, Good eq h acc → (∀ e ∈ items old, e.hash = h e.key) →
      (items old ++ items acc).Pairwise (fun x y => eq x.key y.key = false) →
      (items old).length + (items acc).length < acc.length →
      ∃ b', rehashLoop eq old acc = some b' ∧ Good eq h b' ∧ b'.length = acc.length ∧
        (items b').Perm (items old ++ items acc) := by
  induction old with
  | nil => intro acc G _ _ _; exact ⟨acc, rfl, G, rfl, List.Perm.refl _⟩
  | cons o old ih =>
    intro acc G hh hd hroom
    cases o with
    | none => exact ih acc G hh hd hroom
    | some e =>
      have hit : items (some e :: old) = e :: items old := rfl
      rw [hit] at hh hd hroom ⊢
      rw [List.cons_append, List.pairwise_cons] at hd
      simp only [List.length_cons] at hroom
      obtain ⟨b1, hb1, G1, hl1, hp1⟩ := insertEntry_spec L G e (hh e (by simp))
        (fun x hx => by rw [L.comm]; exact hd.1 x (by simp [hx])) (by omega)
      have hp : (items old ++ items b1).Perm (e :: (items old ++ items acc)) :=
        (List.Perm.append_left _ hp1).trans List.perm_middle
      obtain ⟨b2, hb2, G2, hl2, hp2⟩ := ih b1 G1 (fun x hx => hh x (List.mem_cons_of_mem _ hx))
        (pairwise_perm L hp.symm (List.pairwise_cons.mpr hd)) (by rw [hp1.length_eq]; simp only [List.length_cons]; omega)
      refine ⟨b2, ?_, G2, by omega, hp2.trans hp⟩
      simp only [rehashLoop, hb1]; exact hb2

/-- Invariant of a whole collection: table good (or no table yet), length right, load below 2/3. -/
structure WF (eq : K → K → Bool) (h : K → BitVec 64) (c : Coll K V) : Prop where
  len : c.len = (items c.buckets).length
  good : c.buckets = [] ∨ (Good eq h c.buckets ∧ 8 ≤ c.buckets.length ∧ c.len * 3 < c.buckets.length * 2)

theorem WF.distinct {c : Coll K V} (w : WF eq h c) :
    (items c.buckets).Pairwise (fun x y => eq x.key y.key = false) := by
  rcases w.good with hn | ⟨G, _⟩
  · rw [hn]; exact List.Pairwise.nil
  · exact G.distinct

theorem wf_new : WF eq h (Coll.new : Coll K V) := ⟨rfl, Or.inl rfl⟩

theorem WF.find (L : LawfulKey eq h) {c : Coll K V} (w : WF eq h c) (k : K) :
    (∃ i e, findIndex eq c.buckets (h k) k = .at i ∧ c.buckets[i]? = some (some e) ∧ eq e.key k = true ∧
      Good eq h c.buckets) ∨
    (findIndex eq c.buckets (h k) k = .no ∧ ∀ e ∈ items c.buckets, eq e.key k = false) := by
  rcases w.good with hn | ⟨G, _⟩
  · right; rw [hn]; exact ⟨rfl, by intro e he; cases he⟩
  · rcases findIndex_spec L G k with ⟨i, e, h1, h2, h3⟩ | hh
    · exact Or.inl ⟨i, e, h1, h2, h3, G⟩
    · exact Or.inr hh

theorem reserve_spec (L : LawfulKey eq h) {c : Coll K V} (w : WF eq h c) :
    ∃ c', reserveForInsert eq c = some c' ∧ Good eq h c'.buckets ∧ 8 ≤ c'.buckets.length ∧ c'.len = c.len ∧
      (c.len + 1) * 3 < c'.buckets.length * 2 ∧ (items c'.buckets).Perm (items c.buckets) := by
  unfold reserveForInsert
  simp only []
  rcases w.good with hn | ⟨G, h8, hload⟩
  · have hl : c.len = 0 := by rw [w.len, hn]; rfl
    rw [if_pos (by rw [hn]; simp)]
    refine ⟨{ c with buckets := emptyBuckets 8 }, ?_, good_empty 3, by simp [emptyBuckets], rfl, ?_, ?_⟩
    · simp [rehash, hn, rehashLoop]
    · simp [emptyBuckets, hl]
    · rw [hn]; simp only [items_empty]; exact List.Perm.refl _
  · rw [if_neg (by omega)]
    by_cases hgrow : (c.len + 1) * 3 ≥ c.buckets.length * 2
    · rw [if_pos hgrow]
      obtain ⟨n, hc⟩ := G.pow
      have hc2 : c.buckets.length * 2 = 2 ^ (n + 1) := by rw [hc, Nat.pow_succ]
      have hcap : (emptyBuckets (c.buckets.length * 2) : Buckets K V).length = c.buckets.length * 2 := by
        simp [emptyBuckets]
      obtain ⟨b', hb', G', hl', hp'⟩ := rehashLoop_spec L c.buckets (emptyBuckets (c.buckets.length * 2))
        (by rw [hc2]; exact good_empty (n + 1))
        (fun e he => by obtain ⟨i, hi⟩ := mem_items.mp he; exact G.hashed i e hi)
        (by rw [items_empty, List.append_nil]; exact G.distinct)
        (by rw [items_empty, hcap]; simp only [List.length_nil]; rw [← w.len]; omega)
      refine ⟨{ c with buckets := b' }, ?_, G', ?_, rfl, ?_, ?_⟩
      · simp only [rehash, hb']
      · simp only; omega
      · simp only; omega
      · rw [items_empty, List.append_nil] at hp'; exact hp'
    · rw [if_neg hgrow]
      exact ⟨c, rfl, G, h8, rfl, by omega, List.Perm.refl _⟩

/-- Inserting an absent key. -/
theorem insert_absent (L : LawfulKey eq h) {c : Coll K V} (w : WF eq h c) (k : K) (v : V)
    (hno : ∀ e ∈ items c.buckets, eq e.key k = false) :
    ∃ c1 b, reserveForInsert eq c = some c1 ∧ insertEntry eq c1.buckets ⟨h k, k, v⟩ = some b ∧
      WF eq h ⟨b, c1.len + 1⟩ ∧ (items b).Perm (⟨h k, k, v⟩ :: items c.buckets) := by
  obtain ⟨c1, hr, G, h8, hl, hroom, hp⟩ := reserve_spec L w
  have hlen : (items c1.buckets).length = c.len := by rw [hp.length_eq, w.len]
  obtain ⟨b, hb, G', hl', hp'⟩ := insertEntry_spec L G ⟨h k, k, v⟩ rfl
    (fun x hx => hno x (hp.subset hx)) (by omega)
  refine ⟨c1, b, hr, hb, ⟨?_, Or.inr ⟨G', by simp only; omega, ?_⟩⟩, hp'.trans (hp.cons _)⟩
  · simp only; rw [hp'.length_eq]; simp only [List.length_cons]; omega
  · simp only; omega

theorem items_find_perm (L : LawfulKey eq h) {l₁ l₂ : List (Entry K V)} (p : l₁.Perm l₂)
    (hd : l₁.Pairwise (fun x y => eq x.key y.key = false)) (k : K) :
    l₁.find? (fun e => eq e.key k) = l₂.find? (fun e => eq e.key k) := by
  have hd2 := pairwise_perm L p hd
  have uniq : ∀ {l : List (Entry K V)}, l.Pairwise (fun x y => eq x.key y.key = false) →
      ∀ x, x ∈ l → eq x.key k = true → l.find? (fun e => eq e.key k) = some x := by
    intro l
    induction l with
    | nil => intro _ x hx; cases hx
    | cons a l ih =>
      intro hd x hx hk
      rw [List.pairwise_cons] at hd
      rcases List.mem_cons.mp hx with rfl | hx'
      · simp [hk]
      · have hax := hd.1 x hx'
        have hak : eq a.key k = false := by
          rw [L.comm, ← L.congr hk, L.comm]; exact hax
        rw [List.find?_cons, hak]
        exact ih hd.2 x hx' hk
  cases hf : l₁.find? (fun e => eq e.key k) with
  | none =>
    symm
    rw [List.find?_eq_none] at hf ⊢
    intro x hx
    exact hf x (p.symm.subset hx)
  | some x =>
    have hk := List.find?_some hf
    exact (uniq hd2 x (p.subset (List.mem_of_find?_eq_some hf)) hk).symm

theorem find_of_mem (L : LawfulKey eq h) {l : List (Entry K V)}
    (hd : l.Pairwise (fun x y => eq x.key y.key = false)) {x : Entry K V} (hx : x ∈ l) {k : K}
    (hk : eq x.key k = true) : l.find? (fun e => eq e.key k) = some x := by
  obtain ⟨s, t, rfl⟩ := List.append_of_mem hx
  rw [items_find_perm L List.perm_middle hd k, List.find?_cons, hk]

theorem mapGet_eq (L : LawfulKey eq h) {c : Coll K V} (w : WF eq h c) (k : K) :
    mapGet eq h c k = some (((items c.buckets).find? (fun e => eq e.key k)).map (·.value)) := by
  unfold mapGet
  rcases w.find L k with ⟨i, e, h1, h2, h3, _⟩ | ⟨h1, h2⟩
  · rw [h1]
    simp only [h2]
    rw [find_of_mem L w.distinct (mem_items.mpr ⟨i, h2⟩) h3]; rfl
  · rw [h1]
    have : (items c.buckets).find? (fun e => eq e.key k) = none := by
      rw [List.find?_eq_none]; intro x hx; rw [h2 x hx]; simp
    rw [this]; rfl

theorem mapInsert_spec (L : LawfulKey eq h) {c : Coll K V} (w : WF eq h c) (k : K) (v : V) :
    ∃ c' old, mapInsert eq h c k v = some (c', old) ∧ WF eq h c' ∧ mapGet eq h c k = some old ∧
      c'.len = c.len + (if old.isSome then 0 else 1) ∧
      (∀ q, mapGet eq h c' q = if eq k q then some (some v) else mapGet eq h c q) ∧
      (⟨h k, k, v⟩ ∈ items c'.buckets) ∧
      (∀ e ∈ items c'.buckets, e = ⟨h k, k, v⟩ ∨ e ∈ items c.buckets) := by
  have hget := mapGet_eq L w k
  unfold mapInsert
  simp only []
  rcases w.find L k with ⟨i, e, h1, h2, h3, G⟩ | ⟨h1, h2⟩
  · obtain ⟨hlt, hb⟩ := List.getElem?_eq_some_iff.mp h2
    rw [find_of_mem L w.distinct (mem_items.mpr ⟨i, h2⟩) h3] at hget
    simp only [h1, h2]
    have hG' := replace_spec L G h2 ⟨h k, k, v⟩ rfl h3
    have hlen : (items (c.buckets.set i (some ⟨h k, k, v⟩))).length = (items c.buckets).length := by
      rw [items_set _ hlt, items_split hlt, hb]; simp
    have w' : WF eq h { c with buckets := c.buckets.set i (some ⟨h k, k, v⟩) } := by
      refine ⟨by simp only [hlen]; exact w.len, ?_⟩
      rcases w.good with hn | ⟨_, h8, hload⟩
      · rw [hn] at hlt; simp at hlt
      · exact Or.inr ⟨hG', by simpa using h8, by simpa using hload⟩
    refine ⟨_, _, rfl, w', hget, by simp, ?_, ?_, ?_⟩
    · intro q
      rw [mapGet_eq L w', mapGet_eq L w]
      simp only
      have hmem : (⟨h k, k, v⟩ : Entry K V) ∈ items (c.buckets.set i (some ⟨h k, k, v⟩)) := by
        rw [items_set _ hlt]; simp
      cases hkq : eq k q with
      | true =>
        rw [find_of_mem L hG'.distinct hmem (by exact hkq)]
        simp
      | false =>
        simp only [Bool.false_eq_true, if_false]
        have heq : eq e.key q = false := by rw [L.congr h3]; exact hkq
        rw [items_set _ hlt, items_split hlt, hb]
        simp only [List.find?_append, Option.toList_some, List.singleton_append, List.find?_cons, hkq, heq]
    · simp only; rw [items_set _ hlt]; simp
    · intro x hx
      simp only at hx
      rw [items_set _ hlt] at hx
      rw [items_split hlt]
      simp only [List.mem_append, List.mem_cons] at hx ⊢
      tauto
  · obtain ⟨c1, b, hr, hb, w', hp⟩ := insert_absent L w k v h2
    have hnone : (items c.buckets).find? (fun e => eq e.key k) = none := by
      rw [List.find?_eq_none]; intro x hx; rw [h2 x hx]; simp
    rw [hnone] at hget
    simp only [h1, hr, hb]
    refine ⟨_, _, rfl, w', hget, ?_, ?_, ?_, ?_⟩
    · have := w'.len
      rw [hp.length_eq] at this
      simp only [List.length_cons] at this
      simp only [Option.isSome_none, Bool.false_eq_true, if_false]
      rw [w.len]; simpa using this
    · intro q
      rw [mapGet_eq L w', mapGet_eq L w]
      simp only
      rw [items_find_perm L hp w'.distinct q, List.find?_cons]
      cases hkq : eq k q <;> simp
    · exact hp.symm.subset (by simp)
    · intro x hx
      have := hp.subset hx
      simpa using this

theorem setContains_eq (L : LawfulKey eq h) {c : Coll K Unit} (w : WF eq h c) (k : K) :
    setContains eq h c k = some ((items c.buckets).any (fun e => eq e.key k)) := by
  unfold setContains
  rcases w.find L k with ⟨i, e, h1, h2, h3, _⟩ | ⟨h1, h2⟩
  · rw [h1]
    simp only [Option.some.injEq]
    symm
    rw [List.any_eq_true]
    exact ⟨e, mem_items.mpr ⟨i, h2⟩, h3⟩
  · rw [h1]
    simp only [Option.some.injEq]
    symm
    rw [List.any_eq_false]
    intro x hx; rw [h2 x hx]; simp

theorem setInsert_spec (L : LawfulKey eq h) {c : Coll K Unit} (w : WF eq h c) (k : K) :
    ∃ c' new, setInsert eq h c k = some (c', new) ∧ WF eq h c' ∧ setContains eq h c k = some (!new) ∧
      c'.len = c.len + (if new then 1 else 0) ∧
      (∀ q, setContains eq h c' q = if eq k q then some true else setContains eq h c q) ∧
      (∀ e ∈ items c'.buckets, e = ⟨h k, k, ()⟩ ∨ e ∈ items c.buckets) := by
  have hcon := setContains_eq L w k
  unfold setInsert
  simp only []
  rcases w.find L k with ⟨i, e, h1, h2, h3, G⟩ | ⟨h1, h2⟩
  · have hany : (items c.buckets).any (fun e => eq e.key k) = true := by
      rw [List.any_eq_true]; exact ⟨e, mem_items.mpr ⟨i, h2⟩, h3⟩
    rw [hany] at hcon
    simp only [h1]
    refine ⟨_, _, rfl, w, hcon, by simp, ?_, fun x hx => Or.inr hx⟩
    intro q
    cases hkq : eq k q with
    | false => simp
    | true =>
      rw [setContains_eq L w]
      simp only [if_true, Option.some.injEq]
      rw [List.any_eq_true]
      exact ⟨e, mem_items.mpr ⟨i, h2⟩, by rw [L.congr h3]; exact hkq⟩
  · obtain ⟨c1, b, hr, hb, w', hp⟩ := insert_absent L w k () h2
    have hany : (items c.buckets).any (fun e => eq e.key k) = false := by
      rw [List.any_eq_false]; intro x hx; rw [h2 x hx]; simp
    rw [hany] at hcon
    simp only [h1, hr, hb]
    refine ⟨_, _, rfl, w', hcon, ?_, ?_, ?_⟩
    · have := w'.len
      rw [hp.length_eq] at this
      simp only [List.length_cons] at this
      simp only [if_true]
      rw [w.len]; simpa using this
    · intro q
      rw [setContains_eq L w', setContains_eq L w]
      simp only
      rw [hp.any_eq]
      simp only [List.any_cons]
      cases hkq : eq k q <;> simp
    · intro x hx
      have := hp.subset hx
      simpa using this

/-! ### Iteration -/

theorem iterNext_spec (b : Buckets K V) (i : Nat) :
    match items (b.drop i) with
    | [] => iterNext b i = none
    | e :: rest => ∃ i', iterNext b i = some ((e.key, e.value), i') ∧ i < i' ∧ i' ≤ b.length ∧
        items (b.drop i') = rest := by
  by_cases hlt : i < b.length
  · rw [List.drop_eq_getElem_cons hlt]
    rw [iterNext, dif_pos hlt]
    cases hb : b[i] with
    | none =>
      have := iterNext_spec b (i + 1)
      have hi : items (none :: b.drop (i + 1)) = items (b.drop (i + 1)) := rfl
      rw [hi]
      simp only
      split at this
      · exact this
      · rename_i e rest h0
        obtain ⟨i', h1, h2, h3, h4⟩ := this
        exact ⟨i', h1, by omega, h3, h4⟩
    | some e =>
      have hi : items (some e :: b.drop (i + 1)) = e :: items (b.drop (i + 1)) := rfl
      rw [hi]
      exact ⟨i + 1, rfl, by omega, by omega, rfl⟩
  · rw [List.drop_eq_nil_of_le (by omega)]
    simp only [items, List.filterMap_nil]
    rw [iterNext, dif_neg hlt]
termination_by b.length - i

theorem iterAll_spec (b : Buckets K V) : ∀ fuel i, b.length - i ≤ fuel →
    iterAll b fuel i = (items (b.drop i)).map (fun e => (e.key, e.value)) := by
  intro fuel
  induction fuel with
  | zero =>
    intro i hf
    rw [List.drop_eq_nil_of_le (by omega)]; rfl
  | succ fuel ih =>
    intro i hf
    rw [iterAll]
    have := iterNext_spec b i
    split at this
    · rename_i h0; rw [h0, this]; rfl
    · rename_i e rest h0
      obtain ⟨i', h1, h2, h3, h4⟩ := this
      rw [h0, h1]
      simp only
      rw [ih i' (by omega), h4]; rfl

theorem toItems_eq (c : Coll K V) : toItems c = (items c.buckets).map (fun e => (e.key, e.value)) := by
  unfold toItems
  rw [iterAll_spec _ _ _ (by omega)]
  simp

/-! ### Unordered accumulator -/

theorem foldl_add_perm {α : Type} (f : α → BitVec 64) {l₁ l₂ : List α} (p : l₁.Perm l₂) (u : UHasher) :
    l₁.foldl (fun u x => u.add (f x)) u = l₂.foldl (fun u x => u.add (f x)) u := by
  refine p.foldl_eq' (f := fun u x => u.add (f x)) ?_ u
  intro x _ y _ z
  simp only [UHasher.add, UHasher.mk.injEq, and_true]
  refine ⟨?_, ?_⟩
  · rw [BitVec.add_assoc, BitVec.add_assoc, BitVec.add_comm (f x)]
  · rw [BitVec.xor_assoc, BitVec.xor_assoc, BitVec.xor_comm (f x)]

theorem collEq_go (g : Coll K V → K × V → Option Bool) (r : Coll K V)
    (l : List (K × V)) (p : K × V → Bool) (hg : ∀ x ∈ l, g r x = some (p x)) :
    collEq.go g r l = some (l.all p) := by
  induction l with
  | nil => rfl
  | cons x l ih =>
    rw [collEq.go, hg x (by simp)]
    cases hp : p x with
    | false => simp [hp]
    | true => simp only [List.all_cons, hp, Bool.true_and]; exact ih (fun y hy => hg y (List.mem_cons_of_mem _ hy))

end Ferlium.HColl
