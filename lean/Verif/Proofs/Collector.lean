import Verif.Model.Collector
import Mathlib.Tactic

/-!
# Lemmas on functions made by the search for implementations
-/

namespace Ferlium.Collector

open Ferlium.Checkpoint (Defs)

variable {cand : Nat → Nat → Nat}

theorem unique_some {c : Nat → Nat} {taken : Nat → Bool} (n : Nat) : ∀ k r, unique c taken n k = some r →
    taken r = false := by
  induction n with
  | zero => intro k r h; cases h
  | succ n ih =>
    intro k r h
    simp only [unique] at h
    split at h
    · exact ih _ _ h
    · rename_i hn
      cases h
      simpa using hn

theorem unique_none {c : Nat → Nat} {taken : Nat → Bool} (n : Nat) : ∀ k, unique c taken n k = none →
    ∀ i < n, taken (c (k + i)) = true := by
  induction n with
  | zero => intro k _ i hi; omega
  | succ n ih =>
    intro k h i hi
    simp only [unique] at h
    split at h
    · rename_i hk
      cases i with
      | zero => exact hk
      | succ i =>
        have := ih _ h i (by omega)
        rwa [show k + 1 + i = k + (i + 1) by omega] at this
    · cases h

theorem unique_ends {c : Nat → Nat} (hc : Function.Injective c) {taken : Nat → Bool} {l : List Nat}
    (hl : ∀ n, taken n = true → n ∈ l) {n : Nat} (hn : l.length < n) (k : Nat) :
    ∃ r, unique c taken n k = some r := by
  cases h : unique c taken n k with
  | some r => exact ⟨r, rfl⟩
  | none =>
    have h1 := unique_none n k h
    have h2 : ((List.range n).map fun i => c (k + i)).Nodup :=
      List.nodup_range.map fun a b hab => by have := hc hab; omega
    have h3 : ((List.range n).map fun i => c (k + i)) ⊆ l := by
      intro x hx
      obtain ⟨i, hi, rfl⟩ := List.mem_map.1 hx
      exact hl _ (h1 i (List.mem_range.1 hi))
    have := (h2.subperm h3).length_le
    simp at this
    omega

/-- `s` is `s0` with additions. -/
def Keeps (s0 s : St) : Prop := s.initial = s0.initial ∧ s0.elems <+: s.elems ∧ s0.data <+: s.data

theorem back_eq {s s' : St} (h : Keeps s s') :
    ({ s' with keys := s.keys, data := s'.data.take s.data.length, elems := s'.elems.take s.elems.length } : St)
      = s := by
  obtain ⟨h1, h2, h3⟩ := h
  cases s
  cases s'
  simp only at h1 h2 h3
  simp only [h1, St.mk.injEq, true_and, and_true]
  exact ⟨(List.prefix_iff_eq_take.1 h2).symm, (List.prefix_iff_eq_take.1 h3).symm⟩

mutual
theorem run_keeps : ∀ (a : Act) (base : Nat) (s s' : St), run cand base s a = some s' →
    ∀ s0 : St, s0.next ≤ base → Keeps s0 s → Keeps s0 s'
  | .push name body, base, s, s', h, s0, hb, hk => by
    simp only [run] at h
    split at h
    · obtain ⟨n, -, rfl⟩ := Option.map_eq_some_iff.1 h
      exact ⟨hk.1, hk.2.1.trans (List.prefix_append _ _), hk.2.2⟩
    · cases h
  | .reserve name, base, s, s', h, s0, hb, hk => by
    simp only [run] at h
    obtain ⟨n, -, rfl⟩ := Option.map_eq_some_iff.1 h
    exact ⟨hk.1, hk.2.1.trans (List.prefix_append _ _), hk.2.2⟩
  | .replace id body, base, s, s', h, s0, hb, hk => by
    simp only [run] at h
    split at h
    · rename_i hc
      split at h
      · cases h
        obtain ⟨h1, ⟨l, h2⟩, h3⟩ := hk
        refine ⟨h1, ?_, h3⟩
        simp only [← h2]
        rw [List.set_append_right _ _ (by unfold St.next at hb; omega)]
        exact List.prefix_append _ _
      · cases h
    · cases h
  | .add t k ms, base, s, s', h, s0, hb, hk => by
    simp only [run] at h
    split at h
    · cases h
      exact ⟨hk.1, hk.2.1, hk.2.2.trans (List.prefix_append _ _)⟩
    · cases h
  | .attempt acts, base, s, s', h, s0, hb, hk => by
    simp only [run] at h
    obtain ⟨s1, h1, rfl⟩ := Option.map_eq_some_iff.1 h
    rw [back_eq (runAll_keeps acts s.next s s1 h1 s (Nat.le_refl _)
      ⟨rfl, List.prefix_refl _, List.prefix_refl _⟩)]
    exact hk
theorem runAll_keeps : ∀ (l : List Act) (base : Nat) (s s' : St), runAll cand base s l = some s' →
    ∀ s0 : St, s0.next ≤ base → Keeps s0 s → Keeps s0 s'
  | [], base, s, s', h, s0, hb, hk => by
    simp only [runAll] at h
    cases h
    exact hk
  | a :: t, base, s, s', h, s0, hb, hk => by
    simp only [runAll] at h
    split at h
    · rename_i s1 h1
      exact runAll_keeps t base s1 s' h s0 hb (run_keeps a base s s1 h1 s0 hb hk)
    · cases h
end

theorem attempt_eq {base : Nat} {s s' : St} {acts : List Act}
    (h : run cand base s (.attempt acts) = some s') : s' = s := by
  simp only [run] at h
  obtain ⟨s1, h1, rfl⟩ := Option.map_eq_some_iff.1 h
  exact back_eq (runAll_keeps acts s.next s s1 h1 s (Nat.le_refl _)
    ⟨rfl, List.prefix_refl _, List.prefix_refl _⟩)

/-- All references are to functions and implementations that exist, and names are distinct. -/
structure Ok (s : St) : Prop where
  body : ∀ e ∈ s.elems, ∀ b, e.2 = some b → ∀ f ∈ b, f < s.next
  impl : ∀ m ∈ s.data, ∀ f ∈ m, f < s.next
  key : ∀ t k i, s.keys t k = some i → i < s.data.length
  names : (s.elems.map (·.1)).Nodup

theorem fresh_spec {s : St} {name n : Nat} (h : s.fresh cand name = some n) : n ∉ s.elems.map (·.1) := by
  have := unique_some _ _ _ h
  rw [List.any_eq_false] at this
  intro hn
  obtain ⟨e, he, rfl⟩ := List.mem_map.1 hn
  exact this e he (by simp)

theorem Ok.append {s : St} (h : Ok s) {n : Nat} (hn : n ∉ s.elems.map (·.1)) (o : Option (List Nat))
    (ho : ∀ b, o = some b → ∀ f ∈ b, f < s.next) : Ok { s with elems := s.elems ++ [(n, o)] } := by
  have hx : ∀ f, f < s.next → f < St.next { s with elems := s.elems ++ [(n, o)] } := by
    intro f hf
    simp only [St.next, List.length_append, List.length_singleton] at hf ⊢
    omega
  refine ⟨fun e he b hb f hf => ?_, fun m hm f hf => hx f (h.impl m hm f hf), h.key, ?_⟩
  · rcases List.mem_append.1 he with he | he
    · exact hx f (h.body e he b hb f hf)
    · rw [List.mem_singleton] at he
      subst he
      exact hx f (ho b hb f hf)
  · simp only [List.map_append, List.map_cons, List.map_nil]
    rw [List.nodup_append]
    exact ⟨h.names, by simp, fun a ha b hb => by
      simp only [List.mem_singleton] at hb
      subst hb
      exact fun hab => hn (hab ▸ ha)⟩

theorem run_ok {base : Nat} {s s' : St} (h : Ok s) {a : Act} (hr : run cand base s a = some s') : Ok s' := by
  cases a with
  | push name body =>
    simp only [run] at hr
    split at hr
    · rename_i hb
      obtain ⟨n, hn, rfl⟩ := Option.map_eq_some_iff.1 hr
      refine h.append (fresh_spec hn) _ fun b hb' f hf => ?_
      cases hb'
      simpa using List.all_eq_true.1 hb f hf
    · cases hr
  | reserve name =>
    simp only [run] at hr
    obtain ⟨n, hn, rfl⟩ := Option.map_eq_some_iff.1 hr
    exact h.append (fresh_spec hn) _ (by simp)
  | replace id body =>
    simp only [run] at hr
    split at hr
    · rename_i hc
      split at hr
      · rename_i n o hn
        cases hr
        have hx : St.next { s with elems := s.elems.set (id - s.initial) (n, some body) } = s.next := by
          simp [St.next]
        refine ⟨fun e he b hb f hf => ?_, fun m hm f hf => ?_, h.key, ?_⟩
        · rw [hx]
          rcases List.mem_or_eq_of_mem_set he with he | rfl
          · exact h.body e he b hb f hf
          · cases hb
            simpa using List.all_eq_true.1 hc.2.2 f hf
        · rw [hx]
          exact h.impl m hm f hf
        · simp only [List.map_set]
          have : (s.elems.map (·.1)).set (id - s.initial) n = s.elems.map (·.1) := by
            apply List.ext_getElem?
            intro j
            rw [List.getElem?_set]
            split
            · rename_i hj
              subst hj
              have hlt := (List.getElem?_eq_some_iff.1 hn).1
              rw [if_pos (by simpa using hlt)]
              simp [hn]
            · rfl
          rw [this]
          exact h.names
      · cases hr
    · cases hr
  | add t k ms =>
    simp only [run] at hr
    split at hr
    · rename_i hb
      cases hr
      refine ⟨h.body, fun m hm f hf => ?_, fun t' k' i hi => ?_, h.names⟩
      · rcases List.mem_append.1 hm with hm | hm
        · exact h.impl m hm f hf
        · rw [List.mem_singleton] at hm
          subst hm
          have := List.all_eq_true.1 hb f hf
          simp only [decide_eq_true_eq] at this
          exact this
      · simp only [List.length_append, List.length_singleton]
        simp only [] at hi
        split at hi
        · cases hi; omega
        · have := h.key _ _ _ hi; omega
    · cases hr
  | attempt acts => rw [attempt_eq hr]; exact h

theorem runAll_ok {base : Nat} (l : List Act) : ∀ {s s' : St}, Ok s → runAll cand base s l = some s' → Ok s' := by
  induction l with
  | nil => intro s s' h hr; simp only [runAll] at hr; cases hr; exact h
  | cons a t ih =>
    intro s s' h hr
    simp only [runAll] at hr
    split at hr
    · rename_i s1 h1
      exact ih (run_ok h h1) hr
    · cases hr

/-- Every name that means something was stored with what it means. -/
def Stored (d : Defs) : Prop := ∀ n i, d.ids n = some i → ∃ v, d.data[i]? = some (v, some n)

theorem Stored.insert {d : Defs} (h : Stored d) (v n : Nat) : Stored (d.insert (v, some n)) := by
  intro m i hi
  simp only [Defs.insert] at hi ⊢
  split at hi
  · rename_i hm
    cases hi
    exact ⟨v, by simp [hm]⟩
  · obtain ⟨w, hw⟩ := h m i hi
    exact ⟨w, by rw [List.getElem?_append_left (List.getElem?_eq_some_iff.1 hw).1, hw]⟩

theorem commit_spec (l : List (Nat × Option (List Nat))) : ∀ {fs fs' : List (List Nat)} {d d' : Defs},
    commit cand l fs d = some (fs', d') →
    (∃ bs, l.map (·.2) = bs.map some ∧ fs' = fs ++ bs) ∧
    (∃ ns : List Nat, ns.length = l.length ∧ d'.data = d.data ++ ns.mapIdx fun i n => (fs.length + i, some n)) ∧
    (∀ n i, d.ids n = some i → d'.ids n = some i) ∧
    ∀ j < l.length, ∃ n, d.ids n = none ∧ d'.ids n = some (d.data.length + j) := by
  induction l with
  | nil =>
    intro fs fs' d d' h
    simp only [commit] at h
    cases h
    exact ⟨⟨[], rfl, by simp⟩, ⟨[], rfl, by simp⟩, fun _ _ h => h, fun j hj => by cases hj⟩
  | cons e t ih =>
    intro fs fs' d d' h
    obtain ⟨name, body⟩ := e
    simp only [commit] at h
    cases hn : unique (cand name) (fun n => (d.ids n).isSome) (d.data.length + 1) 0 with
    | none => rw [hn] at h; cases h
    | some n =>
    cases body with
    | none => rw [hn] at h; cases h
    | some b =>
      rw [hn] at h
      simp only [] at h
      obtain ⟨⟨bs, h1, h2⟩, ⟨ns, h3, h4⟩, h5, h6⟩ := ih h
      have hfree : d.ids n = none := by
        have := unique_some _ _ _ hn
        simpa using this
      have hold : ∀ m i, d.ids m = some i → d.ids m = some i ∧ (d.insert (fs.length, some n)).ids m = some i := by
        intro m i hm
        refine ⟨hm, ?_⟩
        simp only [Defs.insert]
        split
        · rename_i he
          rw [he, hfree] at hm
          cases hm
        · exact hm
      refine ⟨⟨b :: bs, by simp [h1], by simp [h2]⟩, ⟨n :: ns, by simp [h3], ?_⟩,
        fun m i hm => h5 m i (hold m i hm).2, fun j hj => ?_⟩
      · rw [h4]
        simp [Defs.insert, List.mapIdx_cons, Nat.add_assoc, Nat.add_comm 1]
      · cases j with
        | zero =>
          refine ⟨n, hfree, h5 n _ ?_⟩
          simp [Defs.insert]
        | succ j =>
          obtain ⟨m, hm1, hm2⟩ := h6 j (by simpa using hj)
          refine ⟨m, ?_, ?_⟩
          · cases hm : d.ids m with
            | none => rfl
            | some i => rw [(hold m i hm).2] at hm1; cases hm1
          · rw [hm2]
            simp [Defs.insert]
            omega

theorem commit_ends (hc : ∀ b, Function.Injective (cand b)) (l : List (Nat × Option (List Nat))) :
    ∀ (fs : List (List Nat)) {d : Defs}, Stored d → (∀ e ∈ l, e.2 ≠ none) →
      ∃ r, commit cand l fs d = some r := by
  induction l with
  | nil => intro fs d _ _; exact ⟨_, rfl⟩
  | cons e t ih =>
    intro fs d hd hl
    obtain ⟨name, body⟩ := e
    obtain ⟨r, hr⟩ := unique_ends (hc name) (taken := fun n => (d.ids n).isSome)
      (l := d.data.filterMap (·.2)) (fun n hn => by
        obtain ⟨i, hi⟩ := Option.isSome_iff_exists.1 hn
        obtain ⟨v, hv⟩ := hd n i hi
        exact List.mem_filterMap.2 ⟨_, List.mem_of_getElem? hv, rfl⟩)
      (n := d.data.length + 1) (by have := List.length_filterMap_le (fun x : Nat × Option Nat => x.2) d.data; omega) 0
    cases body with
    | none => exact absurd rfl (hl (name, none) (by simp))
    | some b =>
      simp only [commit, hr]
      exact ih _ (hd.insert _ _) fun e he => hl e (by simp [he])

end Ferlium.Collector
