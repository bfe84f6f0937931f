import Verif.Proofs.SpecTable

/-! Helper lemmas for C37: reachability of specialised functions. -/

namespace Ferlium.SpecTable

variable {S : Type}

/-- Specification: the specialization `i` is used by a declared function, directly or through others. -/
inductive Reach (M : Nat) (m : Mod S) : Nat → Prop
  | root {b : Body S} {id : Id} {i : Nat} : some b ∈ m.functions → id ∈ b.ids →
      (m.table M).indexOf id = some i → Reach M m i
  | step {i j : Nat} {s : Spec S} {id : Id} : Reach M m i → m.specs[i]? = some s → id ∈ s.body.ids →
      (m.table M).indexOf id = some j → Reach M m j

/-- Number of flags not set. -/
def unset (l : List Bool) : Nat := l.countP (fun b => !b)

theorem unset_set {l : List Bool} {i : Nat} (h : l[i]? = some false) :
    unset (l.set i true) + 1 = unset l := by
  induction l generalizing i with
  | nil => simp at h
  | cons b l ih =>
    cases i with
    | zero =>
      simp only [List.getElem?_cons_zero, Option.some.injEq] at h
      subst h
      simp [unset]
    | succ i =>
      have := ih (by simpa using h)
      simp only [unset, List.set_cons_succ, List.countP_cons] at this ⊢
      omega

/-- What looking at some ids does to the state. -/
structure Found (t : Table) (ids : List Id) (st st' : Live) : Prop where
  length : st'.live.length = st.live.length
  live : ∀ (i : Nat), st'.live[i]? = some true ↔ st.live[i]? = some true ∨ ∃ id ∈ ids, t.indexOf id = some i
  work : ∀ i, i ∈ st'.work ↔ i ∈ st.work ∨ (st'.live[i]? = some true ∧ ¬ st.live[i]? = some true)
  measure : st'.work.length + unset st'.live = st.work.length + unset st.live

theorem Found.refl (t : Table) (st : Live) : Found t [] st st :=
  ⟨rfl, by simp, by simp, rfl⟩

theorem Found.append {t : Table} {a b : List Id} {s1 s2 s3 : Live} (h1 : Found t a s1 s2)
    (h2 : Found t b s2 s3) : Found t (a ++ b) s1 s3 := by
  refine ⟨h2.length.trans h1.length, ?_, ?_, h2.measure.trans h1.measure⟩
  · intro i
    rw [h2.live, h1.live]
    simp only [List.mem_append]
    constructor
    · rintro ((h | ⟨x, hx, h⟩) | ⟨x, hx, h⟩)
      · exact Or.inl h
      · exact Or.inr ⟨x, Or.inl hx, h⟩
      · exact Or.inr ⟨x, Or.inr hx, h⟩
    · rintro (h | ⟨x, hx | hx, h⟩)
      · exact Or.inl (Or.inl h)
      · exact Or.inl (Or.inr ⟨x, hx, h⟩)
      · exact Or.inr ⟨x, hx, h⟩
  · intro i
    rw [h2.work, h1.work]
    have m1 : s1.live[i]? = some true → s2.live[i]? = some true := fun h => (h1.live i).mpr (Or.inl h)
    have m2 : s2.live[i]? = some true → s3.live[i]? = some true := fun h => (h2.live i).mpr (Or.inl h)
    tauto

theorem discover_found {t : Table} {st : Live} {id : Id}
    (hr : ∀ i, t.indexOf id = some i → i < st.live.length) :
    ∃ st', discover t st id = some st' ∧ Found t [id] st st' := by
  unfold discover
  cases hi : t.indexOf id with
  | none => exact ⟨st, rfl, rfl, by simp [hi], by simp, rfl⟩
  | some i =>
    have hlt := hr i hi
    simp only []
    cases hb : st.live[i]? with
    | none => rw [List.getElem?_eq_none_iff] at hb; omega
    | some b =>
      cases b with
      | true =>
        refine ⟨st, rfl, rfl, ?_, by simp, rfl⟩
        intro k
        simp only [List.mem_singleton, exists_eq_left, hi, Option.some.injEq]
        constructor
        · exact Or.inl
        · rintro (h | rfl)
          · exact h
          · exact hb
      | false =>
        refine ⟨⟨st.live.set i true, i :: st.work⟩, rfl, by simp, ?_, ?_, ?_⟩
        · intro k
          simp only [List.mem_singleton, exists_eq_left, hi, Option.some.injEq, List.getElem?_set]
          by_cases hk : i = k
          · subst hk; simp [hlt]
          · simp [hk]
        · intro k
          simp only [List.mem_cons, List.getElem?_set]
          by_cases hk : i = k
          · subst hk; rw [if_pos rfl, if_pos hlt, hb]; simp
          · simp [hk, Ne.symm hk]
        · have := unset_set hb
          simp only [List.length_cons]
          omega

theorem discover_fold {t : Table} : ∀ (ids : List Id) (st : Live),
    (∀ id ∈ ids, ∀ i, t.indexOf id = some i → i < st.live.length) →
    ∃ st', ids.foldlM (discover t) st = some st' ∧ Found t ids st st' := by
  intro ids
  induction ids with
  | nil => intro st _; exact ⟨st, rfl, Found.refl t st⟩
  | cons id ids ih =>
    intro st h
    obtain ⟨s1, e1, f1⟩ := discover_found (h id (by simp))
    obtain ⟨s2, e2, f2⟩ := ih s1 (fun x hx i hi => by
      rw [f1.length]; exact h x (by simp [hx]) i hi)
    exact ⟨s2, by simp [List.foldlM_cons, e1, e2], f1.append f2⟩

/-- The invariant of the worklist loop. -/
structure WorkInv (M : Nat) (m : Mod S) (st : Live) : Prop where
  length : st.live.length = m.specs.length
  sound : ∀ (i : Nat), st.live[i]? = some true → Reach M m i
  root : ∀ b, some b ∈ m.functions → ∀ id ∈ b.ids, ∀ i, (m.table M).indexOf id = some i →
    st.live[i]? = some true
  pending : ∀ i ∈ st.work, st.live[i]? = some true
  closed : ∀ (i : Nat) (s : Spec S), st.live[i]? = some true → i ∉ st.work → m.specs[i]? = some s →
    ∀ id ∈ s.body.ids, ∀ j, (m.table M).indexOf id = some j → st.live[j]? = some true

theorem indexOf_lt {M : Nat} {m : Mod S} (hr : InRange M m) {b : Body S} (hb : b ∈ m.bodies) {id : Id}
    (hid : id ∈ b.ids) {i : Nat} (hi : (m.table M).indexOf id = some i) : i < m.specs.length := by
  have := Table.indexOf_some hi
  have h2 := hr b hb id hid (by rw [this]; rfl)
  rw [this] at h2
  simp only [Table.idOf, Mod.table] at h2
  omega

theorem mem_bodies_fn {m : Mod S} {b : Body S} (h : some b ∈ m.functions) : b ∈ m.bodies := by
  simp only [Mod.bodies, List.mem_append, List.mem_filterMap]
  exact Or.inl ⟨some b, h, rfl⟩

theorem mem_bodies_spec {m : Mod S} {s : Spec S} {i : Nat} (h : m.specs[i]? = some s) :
    s.body ∈ m.bodies := by
  simp only [Mod.bodies, List.mem_append, List.mem_map]
  exact Or.inr ⟨s, List.mem_of_getElem? h, rfl⟩

theorem drain_spec {M : Nat} {m : Mod S} (hr : InRange M m) : ∀ (k : Nat) (st : Live),
    st.work.length + unset st.live ≤ k → WorkInv M m st →
    ∃ st', drain (m.table M) m.specs st = some st' ∧ WorkInv M m st' ∧ st'.work = [] := by
  intro k
  induction k with
  | zero =>
    intro st hk h
    have : st.work = [] := List.length_eq_zero_iff.mp (by omega)
    refine ⟨st, ?_, h, this⟩
    unfold drain
    rw [this]
  | succ k ih =>
    intro st hk h
    cases hw : st.work with
    | nil =>
      refine ⟨st, ?_, h, hw⟩
      unfold drain
      rw [hw]
    | cons i work =>
      have hlive := h.pending i (by simp [hw])
      have hlt : i < m.specs.length := by
        rw [← h.length]; exact (List.getElem?_eq_some_iff.mp hlive).1
      obtain ⟨s, hs⟩ : ∃ s, m.specs[i]? = some s := ⟨_, List.getElem?_eq_getElem hlt⟩
      obtain ⟨s1, e1, f1⟩ := discover_fold (t := m.table M) s.body.ids ⟨st.live, work⟩ (by
        intro id hid j hj
        show j < st.live.length
        rw [h.length]
        exact indexOf_lt hr (mem_bodies_spec hs) hid hj)
      have hinv : WorkInv M m s1 := by
        refine ⟨f1.length.trans h.length, ?_, ?_, ?_, ?_⟩
        · intro j hj
          rcases (f1.live j).mp hj with h1 | ⟨id, hid, h1⟩
          · exact h.sound j h1
          · exact Reach.step (h.sound i hlive) hs hid h1
        · intro b hb id hid j hj
          exact (f1.live j).mpr (Or.inl (h.root b hb id hid j hj))
        · intro j hj
          rcases (f1.work j).mp hj with h1 | h1
          · exact (f1.live j).mpr (Or.inl (h.pending j (by rw [hw]; simp only [List.mem_cons]; exact Or.inr h1)))
          · exact h1.1
        · intro j s' hj hnw hs' id hid j' hj'
          by_cases hold : st.live[j]? = some true
          · by_cases hji : j = i
            · subst hji
              rw [hs] at hs'
              cases hs'
              exact (f1.live j').mpr (Or.inr ⟨id, hid, hj'⟩)
            · have hjw : j ∉ st.work := by
                rw [hw]
                simp only [List.mem_cons, not_or]
                exact ⟨hji, fun hc => hnw ((f1.work j).mpr (Or.inl hc))⟩
              exact (f1.live j').mpr (Or.inl (h.closed j s' hold hjw hs' id hid j' hj'))
          · exact absurd ((f1.work j).mpr (Or.inr ⟨hj, hold⟩)) hnw
      obtain ⟨s2, e2, i2, w2⟩ := ih s1 (by
        have := f1.measure
        rw [hw] at hk
        simp only [List.length_cons] at this hk
        omega) hinv
      refine ⟨s2, ?_, i2, w2⟩
      unfold drain
      rw [hw]
      simp only [hs, e1]
      exact e2

theorem roots_spec {t : Table} {n : Nat} : ∀ (l : List (Option (Body S))) (st : Live), st.live.length = n →
    (∀ b, some b ∈ l → ∀ id ∈ b.ids, ∀ i, t.indexOf id = some i → i < n) →
    ∃ st', l.foldlM (discoverSlot t) st = some st' ∧
      Found t (l.filterMap id |>.flatMap Body.ids) st st' := by
  intro l
  induction l with
  | nil => intro st _ _; exact ⟨st, rfl, Found.refl t st⟩
  | cons slot l ih =>
    intro st hl h
    cases slot with
    | none =>
      obtain ⟨s, e, f⟩ := ih st hl (fun b hb => h b (by simp [hb]))
      exact ⟨s, by simpa [List.foldlM_cons, discoverSlot] using e, by simpa using f⟩
    | some b =>
      obtain ⟨s1, e1, f1⟩ := discover_fold (t := t) b.ids st (by
        intro id hid i hi; rw [hl]; exact h b (by simp) id hid i hi)
      obtain ⟨s2, e2, f2⟩ := ih s1 (f1.length.trans hl) (fun b hb => h b (by simp [hb]))
      refine ⟨s2, by simp only [List.foldlM_cons, discoverSlot, e1]; exact e2, ?_⟩
      simpa using f1.append f2

/-- The search finds exactly the reachable specializations. -/
theorem reachable_spec {M : Nat} {m : Mod S} (hr : InRange M m) :
    ∃ live, reachable (m.table M) m = some live ∧ live.length = m.specs.length ∧
      ∀ (i : Nat), live[i]? = some true ↔ Reach M m i := by
  obtain ⟨s1, e1, f1⟩ := roots_spec (t := m.table M) (n := m.specs.length) m.functions
    ⟨List.replicate m.specs.length false, []⟩ (by simp)
    (fun b hb id hid i hi => indexOf_lt hr (mem_bodies_fn hb) hid hi)
  have hroot : ∀ i : Nat, s1.live[i]? = some true ↔
      ∃ b, some b ∈ m.functions ∧ ∃ id ∈ b.ids, (m.table M).indexOf id = some i := by
    intro i
    rw [f1.live]
    simp only [List.getElem?_replicate, List.mem_flatMap, List.mem_filterMap, id_eq, exists_eq_right]
    constructor
    · rintro (h | ⟨id, ⟨b, hb, hid⟩, h⟩)
      · split_ifs at h; simp at h
      · exact ⟨b, hb, id, hid, h⟩
    · rintro ⟨b, hb, id, hid, h⟩
      exact Or.inr ⟨id, ⟨b, hb, hid⟩, h⟩
  have hinv : WorkInv M m s1 := by
    have hnew : ∀ i : Nat, s1.live[i]? = some true → i ∈ s1.work := by
      intro i hi
      refine (f1.work i).mpr (Or.inr ⟨hi, ?_⟩)
      simp only [List.getElem?_replicate]
      split_ifs <;> simp
    refine ⟨by rw [f1.length]; simp, ?_, ?_, ?_, ?_⟩
    · intro i hi
      obtain ⟨b, hb, id, hid, h⟩ := (hroot i).mp hi
      exact Reach.root hb hid h
    · intro b hb id hid i hi
      exact (hroot i).mpr ⟨b, hb, id, hid, hi⟩
    · intro i hi
      rcases (f1.work i).mp hi with h | h
      · simp at h
      · exact h.1
    · intro i s hi hnw
      exact absurd (hnew i hi) hnw
  obtain ⟨s2, e2, i2, w2⟩ := drain_spec hr _ s1 le_rfl hinv
  refine ⟨s2.live, ?_, i2.length, ?_⟩
  · unfold reachable
    rw [e1]
    simp only [Option.bind_eq_bind, Option.bind_some, e2]
    rfl
  · intro i
    refine ⟨i2.sound i, ?_⟩
    intro h
    induction h with
    | root hb hid hi => exact i2.root _ hb _ hid _ hi
    | step _ hs hid hj ih => exact i2.closed _ _ ih (by rw [w2]; simp) hs _ hid _ hj

theorem keptOfLive_get : ∀ (l : List Bool) (o i : Nat),
    (keptOfLive l o)[i]? = l[i]?.map fun b => if b then some (o + i) else none := by
  intro l
  induction l with
  | nil => intro o i; simp [keptOfLive]
  | cons b l ih =>
    intro o i
    cases i with
    | zero => simp [keptOfLive]
    | succ i =>
      simp only [keptOfLive, List.getElem?_cons_succ]
      rw [ih, show o + 1 + i = o + (i + 1) by omega]

theorem keptOfLive_length : ∀ (l : List Bool) (o : Nat), (keptOfLive l o).length = l.length := by
  intro l
  induction l with
  | nil => intro o; rfl
  | cons b l ih => intro o; simp [keptOfLive, ih]

theorem keptOfLive_some {l : List Bool} {i j : Nat} :
    (keptOfLive l 0)[i]? = some (some j) ↔ l[i]? = some true ∧ i = j := by
  rw [keptOfLive_get]
  cases h : l[i]? with
  | none => simp
  | some b => cases b <;> simp

end Ferlium.SpecTable
