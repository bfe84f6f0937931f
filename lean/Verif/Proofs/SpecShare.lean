import Verif.Proofs.SpecPrune

/-! Helper lemmas for C37: sharing identical specialised functions. -/

namespace Ferlium.SpecTable

variable {S : Type}

/-! ### Resolving merges -/

/-- Every entry is merged into itself or an earlier one. -/
structure Down (n : Nat) (merged : List Nat) : Prop where
  length : merged.length = n
  le : ∀ (i j : Nat), merged[i]? = some j → j ≤ i

theorem resolve_self {merged : List Nat} {i : Nat} (h : merged[i]? = some i) :
    resolve merged i = some i := by
  unfold resolve
  simp [h]

theorem resolve_next {merged : List Nat} {i j : Nat} (h : merged[i]? = some j) :
    resolve merged i = resolve merged j := by
  by_cases hij : j = i
  · subst hij; rfl
  · conv_lhs => unfold resolve
    simp [h, hij]

theorem resolve_spec {n : Nat} {merged : List Nat} (hd : Down n merged) : ∀ (i : Nat), i < n →
    ∃ r, resolve merged i = some r ∧ r ≤ i ∧ merged[r]? = some r := by
  intro i
  induction i using Nat.strong_induction_on with
  | _ i ih =>
    intro hi
    obtain ⟨j, hj⟩ : ∃ j, merged[i]? = some j :=
      ⟨_, List.getElem?_eq_getElem (by rw [hd.length]; exact hi)⟩
    have hle := hd.le i j hj
    by_cases hij : j = i
    · subst hij
      exact ⟨j, resolve_self hj, le_rfl, hj⟩
    · obtain ⟨r, h1, h2, h3⟩ := ih j (by omega) (by omega)
      exact ⟨r, by rw [resolve_next hj, h1], by omega, h3⟩

theorem resolve_set {n : Nat} {merged : List Nat} (hd : Down n merged) {index o : Nat}
    (hi : merged[index]? = some index) (ho : merged[o]? = some o) (hlt : o < index) :
    ∀ (i r : Nat), i < n → resolve merged i = some r →
      resolve (merged.set index o) i = some (if r = index then o else r) := by
  have hin : index < n := by rw [← hd.length]; exact (List.getElem?_eq_some_iff.mp hi).1
  have ho' : (merged.set index o)[o]? = some o := by
    rw [List.getElem?_set, if_neg (by omega), ho]
  intro i
  induction i using Nat.strong_induction_on with
  | _ i ih =>
    intro r hlen hr
    obtain ⟨j, hj⟩ : ∃ j, merged[i]? = some j :=
      ⟨_, List.getElem?_eq_getElem (by rw [hd.length]; exact hlen)⟩
    have hle := hd.le i j hj
    by_cases hii : i = index
    · subst hii
      rw [resolve_self hi] at hr
      cases hr
      have hn : (merged.set i o)[i]? = some o := by
        rw [List.getElem?_set, if_pos rfl, if_pos (by rw [hd.length]; exact hin)]
      rw [resolve_next hn, resolve_self ho', if_pos rfl]
    · have hj' : (merged.set index o)[i]? = some j := by
        rw [List.getElem?_set, if_neg (Ne.symm hii), hj]
      by_cases hij : j = i
      · subst hij
        rw [resolve_self hj] at hr
        cases hr
        rw [resolve_self hj', if_neg hii]
      · rw [resolve_next hj] at hr
        rw [resolve_next hj']
        exact ih j (by omega) r (by omega) hr

theorem Down.set {n : Nat} {merged : List Nat} (hd : Down n merged) {index o : Nat} (hlt : o < index) :
    Down n (merged.set index o) := by
  refine ⟨by simp [hd.length], ?_⟩
  intro i j h
  rw [List.getElem?_set] at h
  split_ifs at h with h1 h2
  · simp only [Option.some.injEq] at h; omega
  · exact hd.le i j h

/-! ### Agreement up to the merges made so far -/

/-- The two ids name the same function, given the merges. -/
def Same (t : Table) (merged : List Nat) (a b : Id) : Prop :=
  a = b ∨ ∃ i j k, t.indexOf a = some i ∧ t.indexOf b = some j ∧ resolve merged i = some k ∧
    resolve merged j = some k

theorem Same.trans {t : Table} {merged : List Nat} {a b c : Id} (h1 : Same t merged a b)
    (h2 : Same t merged b c) : Same t merged a c := by
  rcases h1 with rfl | ⟨i, j, k, e1, e2, e3, e4⟩
  · exact h2
  · rcases h2 with rfl | ⟨i', j', k', f1, f2, f3, f4⟩
    · exact Or.inr ⟨i, j, k, e1, e2, e3, e4⟩
    · rw [e2] at f1
      cases f1
      rw [e4] at f3
      cases f3
      exact Or.inr ⟨i, j', k, e1, f2, e3, f4⟩

theorem forall₂_trans {α : Type} {R : α → α → Prop} (h : ∀ a b c, R a b → R b c → R a c) :
    ∀ {l1 l2 l3 : List α}, List.Forall₂ R l1 l2 → List.Forall₂ R l2 l3 → List.Forall₂ R l1 l3 := by
  intro l1
  induction l1 with
  | nil => intro l2 l3 h1 h2; cases h1; cases h2; exact .nil
  | cons a l1 ih =>
    intro l2 l3 h1 h2
    cases h1 with
    | cons x y =>
      cases h2 with
      | cons u v => exact .cons (h _ _ _ x u) (ih y v)

/-- All ids of the body are in range. -/
def IdsOk (M : Nat) (m : Mod S) (l : List Id) : Prop :=
  ∀ id ∈ l, ∀ i, (m.table M).indexOf id = some i → i < m.specs.length

/-- Two bodies agree up to the merges made so far. -/
structure AgreeM (t : Table) (merged : List Nat) (a b : Spec S) : Prop where
  original : a.original = b.original
  shape : a.body.shape = b.body.shape
  operands : List.Forall₂ (Same t merged) a.body.operands b.body.operands
  closures : a.body.closures = b.body.closures

/-- The invariant of the merges. -/
structure Merges (M : Nat) (m : Mod S) (merged : List Nat) : Prop where
  down : Down m.specs.length merged
  agree : ∀ (i r : Nat) (a b : Spec S), resolve merged i = some r → m.specs[i]? = some a →
    m.specs[r]? = some b → AgreeM (m.table M) merged a b

theorem mapM_forall₂ {α β : Type} {f g : α → Option β} : ∀ {l l' : List α} {x : List β},
    l.mapM f = some x → l'.mapM g = some x →
    List.Forall₂ (fun a b => ∃ c, f a = some c ∧ g b = some c) l l' := by
  intro l
  induction l with
  | nil =>
    intro l' x h1 h2
    cases h1
    cases l' with
    | nil => exact .nil
    | cons b l' =>
      exfalso
      rw [List.mapM_cons] at h2
      cases hb : g b with
      | none => rw [hb] at h2; cases h2
      | some v =>
        rw [hb] at h2
        cases hr : l'.mapM g with
        | none => simp [hr] at h2
        | some w => simp [hr] at h2
  | cons a l ih =>
    intro l' x h1 h2
    rw [List.mapM_cons] at h1
    cases ha : f a with
    | none => simp [ha] at h1
    | some v =>
      cases hr : l.mapM f with
      | none => simp [ha, hr] at h1
      | some w =>
        simp [ha, hr] at h1
        subst h1
        cases l' with
        | nil => cases h2
        | cons b l' =>
          rw [List.mapM_cons] at h2
          cases hb : g b with
          | none => simp [hb] at h2
          | some v' =>
            cases hr' : l'.mapM g with
            | none => simp [hb, hr'] at h2
            | some w' =>
              simp [hb, hr'] at h2
              obtain ⟨rfl, rfl⟩ := h2
              exact .cons ⟨v', ha, hb⟩ (ih hr hr')

/-- Equal readings of two ids in the bodies of `index` and `o` mean that they name the same function
once `index` is merged into `o`. -/
theorem canonical_same {M : Nat} {m : Mod S} (hb : m.functions.length + m.specs.length ≤ selfReference)
    {merged : List Nat} (hd : Down m.specs.length merged) {index o : Nat}
    (hi : merged[index]? = some index) (ho : merged[o]? = some o) (hlt : o < index) {a b c : Id}
    (ha : ∀ i, (m.table M).indexOf a = some i → i < m.specs.length)
    (hbb : ∀ i, (m.table M).indexOf b = some i → i < m.specs.length)
    (h1 : canonical (m.table M) merged index a = some c)
    (h2 : canonical (m.table M) merged o b = some c) :
    Same (m.table M) (merged.set index o) a b := by
  have hset := resolve_set hd hi ho hlt
  have hmark : ∀ k, k < m.specs.length →
      (m.table M).idOf k ≠ ⟨M, selfReference⟩ := by
    intro k hk he
    simp only [Table.idOf, Mod.table, Id.mk.injEq] at he
    omega
  have hidinj : ∀ k k', (m.table M).idOf k = (m.table M).idOf k' → k = k' := by
    intro k k' he
    simp only [Table.idOf, Mod.table, Id.mk.injEq] at he
    omega
  have hmarkfn : ∀ x : Id, (m.table M).indexOf x = none → x ≠ ⟨M, selfReference⟩ := by
    intro x hx he
    have := indexOf_declared hx (by rw [he])
    rw [he] at this
    simp only at this
    omega
  have hnotid : ∀ (x : Id) k, (m.table M).indexOf x = none → x ≠ (m.table M).idOf k := by
    intro x k hx he
    rw [he, Table.indexOf_idOf] at hx
    cases hx
  have hmod : ∀ k, ((m.table M).idOf k).module_ = M := fun _ => rfl
  unfold canonical at h1 h2
  cases ea : (m.table M).indexOf a with
  | none =>
    simp only [ea, normalizeSelf, if_neg (hnotid a _ ea), Option.some.injEq] at h1
    cases eb : (m.table M).indexOf b with
    | none =>
      simp only [eb, normalizeSelf, if_neg (hnotid b _ eb), Option.some.injEq] at h2
      exact Or.inl (h1.trans h2.symm)
    | some j =>
      exfalso
      obtain ⟨k, hk, _, _⟩ := resolve_spec hd j (hbb j eb)
      simp only [eb, hk, Option.map_some, Option.some.injEq, normalizeSelf, hmod] at h2
      rw [← h1] at h2
      split_ifs at h2
      · exact hmarkfn a ea h2.symm
      · exact hnotid a k ea h2.symm
  | some i =>
    obtain ⟨k, hk, hkle, _⟩ := resolve_spec hd i (ha i ea)
    have hklt : k < m.specs.length := lt_of_le_of_lt hkle (ha i ea)
    simp only [ea, hk, Option.map_some, Option.some.injEq, normalizeSelf, hmod] at h1
    cases eb : (m.table M).indexOf b with
    | none =>
      exfalso
      simp only [eb, normalizeSelf, if_neg (hnotid b _ eb), Option.some.injEq] at h2
      rw [← h2] at h1
      split_ifs at h1
      · exact hmarkfn b eb h1.symm
      · exact hnotid b k eb h1.symm
    | some j =>
      obtain ⟨k', hk', hkle', _⟩ := resolve_spec hd j (hbb j eb)
      have hklt' : k' < m.specs.length := lt_of_le_of_lt hkle' (hbb j eb)
      simp only [eb, hk', Option.map_some, Option.some.injEq, normalizeSelf, hmod] at h2
      have r1 := hset i k (ha i ea) hk
      have r2 := hset j k' (hbb j eb) hk'
      rw [← h2] at h1
      split_ifs at h1 with c1 c2 c3
      · have hk1 := hidinj _ _ c1
        have hk2 := hidinj _ _ c2
        subst hk1; subst hk2
        rw [if_pos rfl] at r1
        rw [if_neg (by omega)] at r2
        exact Or.inr ⟨i, j, _, ea, eb, r1, r2⟩
      · exact absurd h1.symm (hmark k' hklt')
      · exact absurd h1 (hmark k hklt)
      · have := hidinj _ _ h1
        subst this
        exact Or.inr ⟨i, j, _, ea, eb, r1, r2⟩

theorem Same.mono {M : Nat} {m : Mod S} {merged : List Nat} (hd : Down m.specs.length merged)
    {index o : Nat} (hi : merged[index]? = some index) (ho : merged[o]? = some o) (hlt : o < index) {a b : Id}
    (ha : ∀ i, (m.table M).indexOf a = some i → i < m.specs.length)
    (hb : ∀ i, (m.table M).indexOf b = some i → i < m.specs.length)
    (h : Same (m.table M) merged a b) : Same (m.table M) (merged.set index o) a b := by
  rcases h with rfl | ⟨i, j, k, e1, e2, e3, e4⟩
  · exact Or.inl rfl
  · exact Or.inr ⟨i, j, _, e1, e2, resolve_set hd hi ho hlt i k (ha i e1) e3,
      resolve_set hd hi ho hlt j k (hb j e2) e4⟩

theorem forall₂_mono_mem {α : Type} {R Q : α → α → Prop} : ∀ {l l' : List α},
    (∀ a ∈ l, ∀ b ∈ l', R a b → Q a b) → List.Forall₂ R l l' → List.Forall₂ Q l l' := by
  intro l
  induction l with
  | nil => intro l' _ h; cases h; exact .nil
  | cons a l ih =>
    intro l' hm h
    cases h with
    | cons x y =>
      exact .cons (hm _ (by simp) _ (by simp) x)
        (ih (fun a ha b hb => hm a (by simp [ha]) b (by simp [hb])) y)

theorem idsOk_of {M : Nat} {m : Mod S} (hr : InRange M m) {s : Spec S} {i : Nat} (hs : m.specs[i]? = some s) :
    ∀ id ∈ s.body.operands, ∀ j, (m.table M).indexOf id = some j → j < m.specs.length :=
  fun _ hid _ hj => indexOf_lt hr (mem_bodies_spec hs) (by simp [Body.ids, hid]) hj

/-- Merging two bodies that read the same keeps the invariant. -/
theorem Merges.set {M : Nat} {m : Mod S} (hr : InRange M m)
    (hb : m.functions.length + m.specs.length ≤ selfReference) {merged : List Nat} (h : Merges M m merged)
    {index o : Nat} (hi : merged[index]? = some index) (ho : merged[o]? = some o) (hlt : o < index)
    {s so : Spec S} (hs : m.specs[index]? = some s) (hso : m.specs[o]? = some so)
    (h1 : so.original = s.original) (h2 : s.body.shape = so.body.shape)
    (h3 : s.body.closures = so.body.closures) {x : List Id}
    (h4 : s.body.operands.mapM (canonical (m.table M) merged index) = some x)
    (h5 : so.body.operands.mapM (canonical (m.table M) merged o) = some x) :
    Merges M m (merged.set index o) := by
  have hd := h.down
  refine ⟨hd.set hlt, ?_⟩
  intro i r a b hres hia hrb
  have hilt : i < m.specs.length := (List.getElem?_eq_some_iff.mp hia).1
  obtain ⟨r0, hr0, hle0, hself⟩ := resolve_spec hd i hilt
  have hr1 := resolve_set hd hi ho hlt i r0 hilt hr0
  rw [hres] at hr1
  obtain ⟨b0, hb0⟩ : ∃ b0, m.specs[r0]? = some b0 := ⟨_, List.getElem?_eq_getElem (by omega)⟩
  have ag := h.agree i r0 a b0 hr0 hia hb0
  have ops := forall₂_mono_mem (Q := Same (m.table M) (merged.set index o))
    (fun u hu v hv hsame => hsame.mono hd hi ho hlt (idsOk_of hr hia u hu) (idsOk_of hr hb0 v hv))
    ag.operands
  by_cases hri : r0 = index
  · subst hri
    rw [if_pos rfl] at hr1
    simp only [Option.some.injEq] at hr1
    subst hr1
    rw [hs] at hb0
    cases hb0
    rw [hso] at hrb
    cases hrb
    have ops2 := forall₂_mono_mem (Q := Same (m.table M) (merged.set r0 r))
      (fun u hu v hv (hc : ∃ c, _ ∧ _) => by
        obtain ⟨c, hc1, hc2⟩ := hc
        exact canonical_same hb hd hi ho hlt (idsOk_of hr hs u hu) (idsOk_of hr hso v hv) hc1 hc2)
      (mapM_forall₂ h4 h5)
    exact ⟨ag.original.trans h1.symm, ag.shape.trans h2,
      forall₂_trans (R := Same (m.table M) (merged.set r0 r)) (fun _ _ _ p q => Same.trans p q) ops ops2, ag.closures.trans h3⟩
  · rw [if_neg hri] at hr1
    simp only [Option.some.injEq] at hr1
    subst hr1
    rw [hb0] at hrb
    cases hrb
    exact ⟨ag.original, ag.shape, ops, ag.closures⟩

/-! ### The rounds -/

theorem canonical_some {M : Nat} {m : Mod S} {merged : List Nat} (hd : Down m.specs.length merged) (own : Nat)
    {l : List Id} (hl : ∀ id ∈ l, ∀ j, (m.table M).indexOf id = some j → j < m.specs.length) :
    ∃ x, l.mapM (canonical (m.table M) merged own) = some x := by
  refine ⟨_, mapM_some (g := fun id => (canonical (m.table M) merged own id).getD id) ?_⟩
  intro id hid
  unfold canonical
  cases e : (m.table M).indexOf id with
  | none => rfl
  | some i =>
    obtain ⟨k, hk, _⟩ := resolve_spec hd i (hl id hid i e)
    simp [hk]

theorem findSurvivor_spec [DecidableEq S] {M : Nat} {m : Mod S} (hr : InRange M m) {merged : List Nat}
    (hd : Down m.specs.length merged) {index : Nat} {s : Spec S} (hs : m.specs[index]? = some s) :
    ∀ (bucket : List Nat), (∀ o ∈ bucket, o < m.specs.length) →
      ∃ r, findSurvivor (m.table M) m.specs merged index s bucket = some r ∧
        ∀ o, r = some o → o ∈ bucket ∧ ∃ so x, m.specs[o]? = some so ∧ so.original = s.original ∧
          s.body.shape = so.body.shape ∧ s.body.closures = so.body.closures ∧
          s.body.operands.mapM (canonical (m.table M) merged index) = some x ∧
          so.body.operands.mapM (canonical (m.table M) merged o) = some x := by
  intro bucket
  induction bucket with
  | nil => intro _; exact ⟨none, rfl, by simp⟩
  | cons o bucket ih =>
    intro hlt
    obtain ⟨r, e, hprop⟩ := ih (fun o ho => hlt o (by simp [ho]))
    obtain ⟨so, hso⟩ : ∃ so, m.specs[o]? = some so := ⟨_, List.getElem?_eq_getElem (hlt o (by simp))⟩
    have hrest : ∀ o', r = some o' → o' ∈ o :: bucket ∧ _ := fun o' ho' =>
      ⟨List.mem_cons_of_mem _ (hprop o' ho').1, (hprop o' ho').2⟩
    unfold findSurvivor
    simp only [hso]
    by_cases horig : so.original = s.original
    · rw [if_pos horig]
      obtain ⟨x, hx⟩ := canonical_some hd index (idsOk_of hr hs)
      obtain ⟨y, hy⟩ := canonical_some hd o (idsOk_of hr hso)
      have hsi : structurallyIdentical s.body (canonical (m.table M) merged index) so.body
          (canonical (m.table M) merged o) = some (decide (s.body.shape = so.body.shape) &&
            decide (x = y) && decide (s.body.closures = so.body.closures)) := by
        unfold structurallyIdentical
        rw [hx, hy]
        rfl
      simp only [hsi, Option.bind_eq_bind, Option.bind_some]
      split_ifs with hc
      · refine ⟨some o, rfl, ?_⟩
        intro o' ho'
        cases ho'
        simp only [Bool.and_eq_true, decide_eq_true_eq] at hc
        obtain ⟨⟨c1, c2⟩, c3⟩ := hc
        subst c2
        exact ⟨by simp, so, x, hso, horig, c1, c3, hx, hy⟩
      · exact ⟨r, e, hrest⟩
    · rw [if_neg horig]
      exact ⟨r, e, hrest⟩

/-- Number of bodies that are not merged away. -/
def reps (n : Nat) (merged : List Nat) : Nat := (List.range n).countP fun i => decide (merged[i]? = some i)

theorem reps_set {n : Nat} {merged : List Nat} (hd : Down n merged) {index o : Nat}
    (hi : merged[index]? = some index) (hlt : o < index) : reps n (merged.set index o) < reps n merged := by
  have hin : index < n := by rw [← hd.length]; exact (List.getElem?_eq_some_iff.mp hi).1
  have hnew : (merged.set index o)[index]? = some o := by
    rw [List.getElem?_set, if_pos rfl, if_pos (by rw [hd.length]; exact hin)]
  have hother : ∀ i, i ≠ index → (merged.set index o)[i]? = merged[i]? := by
    intro i hne
    rw [List.getElem?_set, if_neg (Ne.symm hne)]
  unfold reps
  obtain ⟨pre, post, hsplit⟩ := List.append_of_mem (List.mem_range.mpr hin)
  have hnd : (List.range n).Nodup := List.nodup_range
  rw [hsplit] at hnd ⊢
  have hni : index ∉ pre ∧ index ∉ post := by
    have := List.nodup_append.mp hnd
    refine ⟨fun hc => this.2.2 _ hc _ (by simp) rfl, (List.nodup_cons.mp this.2.1).1⟩
  rw [List.countP_append, List.countP_append, List.countP_cons, List.countP_cons]
  have e1 : pre.countP (fun i => decide ((merged.set index o)[i]? = some i)) =
      pre.countP (fun i => decide (merged[i]? = some i)) := by
    refine List.countP_congr ?_
    intro x hx
    rw [hother x (fun hc => hni.1 (hc ▸ hx))]
  have e2 : post.countP (fun i => decide ((merged.set index o)[i]? = some i)) =
      post.countP (fun i => decide (merged[i]? = some i)) := by
    refine List.countP_congr ?_
    intro x hx
    rw [hother x (fun hc => hni.2 (hc ▸ hx))]
  rw [e1, e2, hnew, hi]
  simp only [Option.some.injEq, decide_eq_true_eq, if_true]
  rw [if_neg (by omega)]
  omega

/-- The invariant of one round. -/
structure RoundInv (M : Nat) (m : Mod S) (start : List Nat) (seen : List Nat) (st : Round) : Prop where
  merges : Merges M m st.merged
  buckets : ∀ d, ∀ o ∈ st.buckets d, o ∈ seen ∧ st.merged[o]? = some o
  measure : reps m.specs.length st.merged ≤ reps m.specs.length start
  changed : st.changed = true → reps m.specs.length st.merged < reps m.specs.length start

theorem round_spec [DecidableEq S] (digest : Body S → Id → (Id → Option Id) → Nat) {M : Nat} {m : Mod S}
    (hr : InRange M m) (hb : m.functions.length + m.specs.length ≤ selfReference) {merged : List Nat}
    (h : Merges M m merged) :
    ∃ st, round digest (m.table M) m.specs merged = some st ∧
      RoundInv M m merged (List.range m.specs.length) st := by
  unfold round
  refine Graph.foldlM_inv (fun seen st => RoundInv M m merged seen st) ?_ ?_
  · exact ⟨h, by simp, le_rfl, by simp⟩
  · intro pre index post st hsplit inv
    have hmem : index ∈ List.range m.specs.length := by rw [hsplit]; simp
    have hilt := List.mem_range.mp hmem
    have hd := inv.merges.down
    obtain ⟨j, hj⟩ : ∃ j, st.merged[index]? = some j :=
      ⟨_, List.getElem?_eq_getElem (by rw [hd.length]; exact hilt)⟩
    obtain ⟨s, hs⟩ : ∃ s, m.specs[index]? = some s := ⟨_, List.getElem?_eq_getElem hilt⟩
    have hprelt : ∀ o ∈ pre, o < index := by
      intro o ho
      have hpw : (List.range m.specs.length).Pairwise (· < ·) := List.pairwise_lt_range
      rw [hsplit] at hpw
      exact (List.pairwise_append.mp hpw).2.2 o ho index (by simp)
    unfold roundStep
    simp only [hj, hs]
    by_cases hne : j = index
    · subst hne
      rw [if_neg (by simp)]
      set d := digest s.body s.original (canonical (m.table M) st.merged j) with hd'
      obtain ⟨r, e, hprop⟩ := findSurvivor_spec hr hd hs (st.buckets d) (fun o ho =>
        lt_trans (hprelt o (inv.buckets d o ho).1) hilt)
      simp only [e, Option.bind_eq_bind, Option.bind_some]
      cases r with
      | none =>
        refine ⟨_, rfl, inv.merges, ?_, inv.measure, inv.changed⟩
        intro d' o ho
        simp only [] at ho
        split_ifs at ho with hdd
        · rcases List.mem_append.mp ho with ho | ho
          · obtain ⟨h1, h2⟩ := inv.buckets d o ho
            exact ⟨by simp [h1], h2⟩
          · rw [List.mem_singleton] at ho
            subst ho
            exact ⟨by simp, hj⟩
        · obtain ⟨h1, h2⟩ := inv.buckets d' o ho
          exact ⟨by simp [h1], h2⟩
      | some o =>
        obtain ⟨hob, so, x, p1, p2, p3, p4, p5, p6⟩ := hprop o rfl
        obtain ⟨hseen, hoself⟩ := inv.buckets d o hob
        have hlt := hprelt o hseen
        have hlessR := reps_set hd hj hlt
        refine ⟨_, rfl, inv.merges.set hr hb hj hoself hlt hs p1 p2 p3 p4 p5 p6, ?_, ?_, ?_⟩
        · intro d' o' ho'
          obtain ⟨h1, h2⟩ := inv.buckets d' o' ho'
          have := hprelt o' h1
          refine ⟨by simp [h1], ?_⟩
          simp only []
          rw [List.getElem?_set, if_neg (by omega), h2]
        · have := inv.measure
          exact le_trans (le_of_lt hlessR) this
        · intro _
          exact lt_of_lt_of_le hlessR inv.measure
    · rw [if_pos hne]
      refine ⟨st, rfl, inv.merges, ?_, inv.measure, inv.changed⟩
      intro d' o ho
      obtain ⟨h1, h2⟩ := inv.buckets d' o ho
      exact ⟨by simp [h1], h2⟩

theorem groupLoop_spec [DecidableEq S] (digest : Body S → Id → (Id → Option Id) → Nat) {M : Nat} {m : Mod S}
    (hr : InRange M m) (hb : m.functions.length + m.specs.length ≤ selfReference) :
    ∀ (k : Nat) (merged : List Nat), reps m.specs.length merged ≤ k → Merges M m merged →
      ∃ out, groupLoop digest (m.table M) m.specs merged = some out ∧ Merges M m out := by
  intro k
  induction k with
  | zero =>
    intro merged hk h
    obtain ⟨st, e, inv⟩ := round_spec digest hr hb h
    unfold groupLoop
    simp only [e, Option.bind_eq_bind, Option.bind_some]
    by_cases hc : st.changed = true
    · have := inv.changed hc
      omega
    · rw [if_neg hc]
      exact ⟨_, rfl, inv.merges⟩
  | succ k ih =>
    intro merged hk h
    obtain ⟨st, e, inv⟩ := round_spec digest hr hb h
    unfold groupLoop
    simp only [e, Option.bind_eq_bind, Option.bind_some]
    by_cases hc : st.changed = true
    · have := inv.changed hc
      rw [if_pos hc]
      exact ih st.merged (by omega) inv.merges
    · rw [if_neg hc]
      exact ⟨_, rfl, inv.merges⟩

theorem merges_init {M : Nat} {m : Mod S} : Merges M m (List.range m.specs.length) := by
  have hg : ∀ i j : Nat, (List.range m.specs.length)[i]? = some j → i = j := by
    intro i j h
    obtain ⟨h1, h2⟩ := List.getElem?_eq_some_iff.mp h
    simpa using h2
  refine ⟨⟨by simp, fun i j h => by have := hg i j h; omega⟩, ?_⟩
  intro i r a b hres ha hb
  have hilt : i < m.specs.length := (List.getElem?_eq_some_iff.mp ha).1
  rw [resolve_self (by simp [List.getElem?_range hilt])] at hres
  cases hres
  rw [ha] at hb
  cases hb
  exact ⟨rfl, rfl, List.forall₂_same.mpr (fun _ _ => Or.inl rfl), rfl⟩

end Ferlium.SpecTable
