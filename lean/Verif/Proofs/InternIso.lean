import Verif.Proofs.Intern
import Mathlib.Data.List.Nodup

/-! The search for a stored world: what it finds fits, and it finds what fits. -/

namespace Ferlium.Intern

theorem insertBy_perm {α : Type} (le : α → α → Bool) (a : α) : ∀ l : List α, (insertBy le a l).Perm (a :: l)
  | [] => .refl _
  | b :: rest => by
    rw [insertBy]
    split
    · exact .refl _
    · exact ((insertBy_perm le a rest).cons b).trans (.swap a b rest)

theorem sortBy_perm {α : Type} (le : α → α → Bool) : ∀ l : List α, (sortBy le l).Perm l
  | [] => .refl _
  | a :: rest => (insertBy_perm le a _).trans ((sortBy_perm le rest).cons a)

theorem kidsMatch_sub {w : Nat} {map : List Nat} : ∀ {rs es : List Ref},
    kidsMatch w (map.map some) rs es = true → es = rs.map (sub w map)
  | [], [], _ => rfl
  | [], _ :: _, h => by simp [kidsMatch] at h
  | _ :: _, [], h => by simp [kidsMatch] at h
  | r :: rs, e :: es, h => by
    simp only [kidsMatch, Bool.and_eq_true] at h
    rw [kidsMatch_sub h.2, List.map_cons]
    congr 1
    cases r with
    | glob w i => simpa [refMatches, sub, eq_comm] using h.1
    | loc j =>
      have h1 := h.1
      simp only [refMatches, List.getElem?_map] at h1
      match hj : map[j]? with
      | none => simp [hj] at h1
      | some m =>
        simp only [hj, Option.map_some, decide_eq_true_eq] at h1
        simp [sub, hj, h1]

theorem kidsMatch_of {w : Nat} {map : List Nat} : ∀ {rs : List Ref},
    (∀ j, .loc j ∈ rs → j < map.length) → kidsMatch w (map.map some) rs (rs.map (sub w map)) = true
  | [], _ => rfl
  | r :: rs, h => by
    simp only [List.map_cons, kidsMatch, Bool.and_eq_true]
    refine ⟨?_, kidsMatch_of fun j hj => h j (List.mem_cons_of_mem _ hj)⟩
    cases r with
    | glob w i => simp [refMatches, sub]
    | loc j =>
      have := h j List.mem_cons_self
      simp [refMatches, sub, List.getElem?_eq_getElem this]

theorem headMatches_eq {eff : Nat → List (List Nat)} {k e : Kind} (hk : EffOk eff k) (he : EffOk eff e)
    (h : headMatches k.head e.head = true) : e.head = k.head := by
  match hkh : k.head, heh : e.head with
  | .named d x, .named d' x' =>
    simp only [hkh, heh, headMatches, decide_eq_true_eq] at h
    subst h
    rw [hk.1 _ _ hkh, he.1 _ _ heh]
  | .named d x, .var _ | .named d x, .native _ | .named d x, .variant _ | .named d x, .tuple
  | .named d x, .record _ | .named d x, .fn _ _ | .named d x, .subscript _ _ _ | .named d x, .never
  | .var _, _ | .native _, _ | .variant _, _ | .tuple, _ | .record _, _ | .fn _ _, _
  | .subscript _ _ _, _ | .never, _ =>
    simp only [hkh, heh, headMatches, decide_eq_true_eq] at h
    first | exact h.symm | cases h

theorem headMatches_refl (h : Head) : headMatches h h = true := by
  cases h <;> simp [headMatches]

theorem couldMatch_of_head {k e : Kind} (h : k.head = e.head) (hl : k.kids.length = e.kids.length) :
    couldMatch k e = true := by
  unfold couldMatch
  rw [h]
  cases e.head <;> simp [hl]

/-! ## Verification -/

theorem verifyAll_spec {world : List Kind} {w : Nat} {map : List (Option Nat)} :
    ∀ {ks : List Kind} {ms : List (Option Nat)}, verifyAll world w map ks ms = true → ms.length = ks.length →
      ∀ (j : Nat) (k : Kind), ks[j]? = some k → ∃ (m : Nat) (e : Kind), ms[j]? = some (some m) ∧ world[m]? = some e ∧
        kindMatches w map k e = true
  | [], _, _, _, j, k, hk => by simp at hk
  | _ :: _, [], _, hl, _, _, _ => by simp at hl
  | _ :: _, none :: _, h, _, _, _, _ => by simp [verifyAll] at h
  | k0 :: ks, some m :: ms, h, hl, j, k, hk => by
    simp only [verifyAll, Bool.and_eq_true] at h
    cases j with
    | zero =>
      simp only [List.getElem?_cons_zero, Option.some.injEq] at hk
      subst hk
      have h1 := h.1
      split at h1
      · next e he => exact ⟨m, e, by simp, he, h1⟩
      · cases h1
    | succ j =>
      simp only [List.getElem?_cons_succ] at hk ⊢
      exact verifyAll_spec h.2 (by simpa using hl) j k hk

theorem verifyAll_of {world : List Kind} {w : Nat} {map : List (Option Nat)} :
    ∀ {ks : List Kind} {ms : List (Option Nat)},
      (∀ (j : Nat) (k : Kind), ks[j]? = some k → ∃ (m : Nat) (e : Kind), ms[j]? = some (some m) ∧ world[m]? = some e ∧
        kindMatches w map k e = true) → verifyAll world w map ks ms = true
  | [], _, _ => by simp [verifyAll]
  | k :: ks, [], h => by
    obtain ⟨m, e, h1, _⟩ := h 0 k rfl
    simp at h1
  | k :: ks, x :: ms, h => by
    obtain ⟨m, e, h1, h2, h3⟩ := h 0 k rfl
    simp only [List.getElem?_cons_zero, Option.some.injEq] at h1
    subst h1
    simp only [verifyAll, h2, h3, Bool.true_and]
    exact verifyAll_of fun j k' hk' => by
      simpa using h (j + 1) k' (by simpa using hk')

theorem search_sound {lw world : List Kind} {w : Nat} : ∀ {cs : List (Nat × List Nat)}
    {map : List (Option Nat)} {used : List Nat} {m : List (Option Nat)},
    search lw world w cs map used = some m → verifyMapping lw world w m = true
  | [], map, used, m, h => by
    rw [search] at h
    split at h
    · next hv => cases h; exact hv
    · cases h
  | (i, p) :: rest, map, used, m, h => by
    rw [search] at h
    obtain ⟨e, _, he⟩ := List.exists_of_findSome?_eq_some h
    split at he
    · cases he
    · exact search_sound he

theorem search_complete {lw world : List Kind} {w : Nat} (σ : Nat → Nat)
    (hv : verifyMapping lw world w ((List.range lw.length).map fun i => some (σ i)) = true)
    (hinj : ∀ i j, i < lw.length → j < lw.length → σ i = σ j → i = j) :
    ∀ (cs : List (Nat × List Nat)) (map : List (Option Nat)) (used : List Nat),
      (cs.map (·.1)).Nodup → (∀ c ∈ cs, c.1 < lw.length ∧ σ c.1 ∈ c.2 ∧ σ c.1 ∉ used) →
      map.length = lw.length → (∀ i, i < lw.length → i ∈ cs.map (·.1) ∨ map[i]? = some (some (σ i))) →
      (search lw world w cs map used).isSome = true
  | [], map, used, _, _, hlen, hmap => by
    have : map = (List.range lw.length).map fun i => some (σ i) := by
      apply List.ext_getElem?
      intro i
      by_cases hi : i < lw.length
      · rcases hmap i hi with h | h
        · simp at h
        · rw [h]; simp [hi]
      · rw [List.getElem?_eq_none (by omega), List.getElem?_eq_none (by simp; omega)]
    rw [search, if_pos (this ▸ hv)]; rfl
  | (i, p) :: rest, map, used, hnd, hcs, hlen, hmap => by
    rw [search, List.findSome?_isSome_iff]
    obtain ⟨hi, hp, hu⟩ := hcs (i, p) List.mem_cons_self
    simp only at hi hp hu
    refine ⟨σ i, hp, ?_⟩
    rw [if_neg hu]
    simp only [List.map_cons, List.nodup_cons] at hnd
    refine search_complete σ hv hinj rest _ _ hnd.2 ?_ (by simpa using hlen) ?_
    · intro c hc
      obtain ⟨h1, h2, h3⟩ := hcs c (List.mem_cons_of_mem _ hc)
      refine ⟨h1, h2, ?_⟩
      simp only [List.mem_cons, not_or]
      refine ⟨fun e => ?_, h3⟩
      have := hinj _ _ h1 hi e
      exact hnd.1 (this ▸ List.mem_map_of_mem hc)
    · intro j hj
      by_cases hji : j = i
      · subst hji
        right
        rw [List.getElem?_set_self (by omega)]
      · rcases hmap j hj with h | h
        · left
          simpa [hji] using h
        · right
          rw [List.getElem?_set_ne (fun e => hji e.symm)]; exact h

theorem candidates_mem {world : List Kind} : ∀ {ks : List Kind} {i : Nat} {c : Nat × List Nat},
    c ∈ candidates world i ks → ∃ (j : Nat) (k : Kind), ks[j]? = some k ∧ c = (i + j, possible world k)
  | [], _, _, h => by simp [candidates] at h
  | k :: ks, i, c, h => by
    rw [candidates] at h
    rcases List.mem_cons.1 h with rfl | h
    · exact ⟨0, k, rfl, rfl⟩
    · obtain ⟨j, k', h1, h2⟩ := candidates_mem h
      exact ⟨j + 1, k', by simpa using h1, by rw [h2]; congr 1; omega⟩

theorem candidates_fst {world : List Kind} : ∀ (ks : List Kind) (i : Nat),
    (candidates world i ks).map (·.1) = List.range' i ks.length
  | [], _ => rfl
  | k :: ks, i => by
    rw [candidates, List.map_cons, candidates_fst ks (i + 1)]
    rfl

theorem mem_possible {world : List Kind} {k e : Kind} {m : Nat} (h : world[m]? = some e)
    (hc : couldMatch k e = true) : m ∈ possible world k := by
  have hm : m < world.length := (List.getElem?_eq_some_iff.1 h).1
  simp only [possible, List.mem_filter, List.mem_range]
  refine ⟨hm, ?_⟩
  rw [h]; exact hc

/-- A group of kinds fits a world. -/
def Fits (lw world : List Kind) (w : Nat) (map : List Nat) : Prop :=
  map.length = lw.length ∧ ∀ (j : Nat) (k : Kind), lw[j]? = some k → ∃ (m : Nat) (e : Kind), map[j]? = some m ∧
    world[m]? = some e ∧ kindMatches w (map.map some) k e = true

theorem findIso_sound {lw world : List Kind} {w : Nat} {map : List Nat}
    (h : findIso lw world w = some map) : Fits lw world w map := by
  simp only [findIso] at h
  split at h
  · cases h
  · match hs : search lw world w (sortBy (fun a b => decide (a.2.length ≤ b.2.length)) (candidates world 0 lw))
        (List.replicate lw.length none) [] with
    | none => simp [hs] at h
    | some m =>
      rw [hs] at h
      simp only [Option.map_some, Option.some.injEq] at h
      have hv := search_sound hs
      simp only [verifyMapping, Bool.and_eq_true, beq_iff_eq] at hv
      have hspec := verifyAll_spec hv.2 hv.1
      have hm : m = map.map some := by
        subst h
        apply List.ext_getElem?
        intro j
        match hj : lw[j]? with
        | none =>
          have := List.getElem?_eq_none_iff.1 hj
          rw [List.getElem?_eq_none (by omega), List.getElem?_eq_none (by simp; omega)]
        | some k =>
          obtain ⟨x, e, h1, _⟩ := hspec j k hj
          simp [h1]
      refine ⟨by rw [← h]; simpa using hv.1, fun j k hk => ?_⟩
      obtain ⟨x, e, h1, h2, h3⟩ := hspec j k hk
      refine ⟨x, e, ?_, h2, ?_⟩
      · rw [← h]; simp [h1]
      · rw [← hm]; exact h3

theorem findIso_complete {lw world : List Kind} {w : Nat} {map : List Nat} (hf : Fits lw world w map)
    (hnd : map.Nodup)
    (hcould : ∀ (j : Nat) (k : Kind) (m : Nat) (e : Kind), lw[j]? = some k → map[j]? = some m → world[m]? = some e → couldMatch k e = true) :
    (findIso lw world w).isSome = true := by
  have hposs : ∀ (j : Nat) (k : Kind), lw[j]? = some k → ∃ m, map[j]? = some m ∧ m ∈ possible world k := by
    intro j k hk
    obtain ⟨m, e, h1, h2, _⟩ := hf.2 j k hk
    exact ⟨m, h1, mem_possible h2 (hcould j k m e hk h1 h2)⟩
  simp only [findIso]
  rw [if_neg]
  · rw [Option.isSome_map]
    refine search_complete (fun i => (map[i]?).getD 0) ?_ ?_ _ _ _ ?_ ?_ (by simp) ?_
    · have he : ((List.range lw.length).map fun i => some ((map[i]?).getD 0)) = map.map some := by
        apply List.ext_getElem?
        intro i
        by_cases hi : i < lw.length
        · have hi' : i < map.length := by rw [hf.1]; exact hi
          simp [hi, List.getElem?_eq_getElem hi']
        · rw [List.getElem?_eq_none (by simp; omega), List.getElem?_eq_none (by simp; have := hf.1; omega)]
      rw [he]
      simp only [verifyMapping, List.length_map, hf.1, beq_self_eq_true, Bool.true_and]
      refine verifyAll_of fun j k hk => ?_
      obtain ⟨m, e, h1, h2, h3⟩ := hf.2 j k hk
      exact ⟨m, e, by simp [h1], h2, h3⟩
    · intro i j hi hj e
      rw [← hf.1] at hi hj
      simp only [List.getElem?_eq_getElem hi, List.getElem?_eq_getElem hj, Option.getD_some] at e
      exact (List.Nodup.getElem_inj_iff hnd).1 e
    · refine ((sortBy_perm _ _).map _).nodup_iff.2 ?_
      rw [candidates_fst]
      exact List.nodup_range'
    · intro c hc
      obtain ⟨j, k, h1, rfl⟩ := candidates_mem ((sortBy_perm _ _).mem_iff.1 hc)
      obtain ⟨m, h2, h3⟩ := hposs j k h1
      refine ⟨by simpa using (List.getElem?_eq_some_iff.1 h1).1, ?_, by simp⟩
      simpa [h2] using h3
    · intro i hi
      left
      refine ((sortBy_perm _ _).map _).mem_iff.2 ?_
      rw [candidates_fst, List.mem_range'_1]
      omega
  · simp only [List.any_eq_true, not_exists, not_and, Bool.not_eq_true]
    intro c hc
    obtain ⟨j, k, h1, rfl⟩ := candidates_mem hc
    obtain ⟨m, _, h3⟩ := hposs j k h1
    cases hp : possible world k with
    | nil => rw [hp] at h3; simp at h3
    | cons => rfl

theorem findWorld_sound {lw : List Kind} : ∀ {recs : List (List Kind)} {w v : Nat} {map : List Nat},
    findWorld lw w recs = some (v, map) → ∃ (i : Nat) (world : List Kind), v = w + i ∧ recs[i]? = some world ∧ Fits lw world v map
  | [], _, _, _, h => by simp [findWorld] at h
  | world :: rest, w, v, map, h => by
    have next : findWorld lw (w + 1) rest = some (v, map) →
        ∃ (i : Nat) (world' : List Kind), v = w + i ∧ (world :: rest)[i]? = some world' ∧ Fits lw world' v map := by
      intro h
      obtain ⟨i, wo, h1, h2, h3⟩ := findWorld_sound h
      exact ⟨i + 1, wo, by omega, by simpa using h2, h3⟩
    rw [findWorld] at h
    split at h
    · split at h
      · next m hm =>
        cases h
        exact ⟨0, world, rfl, rfl, findIso_sound hm⟩
      · exact next h
    · exact next h

theorem findWorld_complete {lw : List Kind} : ∀ {recs : List (List Kind)} {w i : Nat} {world : List Kind},
    recs[i]? = some world → world.length = lw.length → (findIso lw world (w + i)).isSome = true →
    (findWorld lw w recs).isSome = true
  | [], _, _, _, h, _, _ => by simp at h
  | wo :: rest, w, i, world, h, hl, hi => by
    rw [findWorld]
    cases i with
    | zero =>
      simp only [List.getElem?_cons_zero, Option.some.injEq] at h
      subst h
      rw [if_pos hl]
      obtain ⟨m, hm⟩ := Option.isSome_iff_exists.1 hi
      rw [Nat.add_zero] at hm
      rw [hm]; rfl
    | succ i =>
      have := findWorld_complete (w := w + 1) (i := i) (recs := rest) (by simpa using h) hl
        (by rw [← hi]; congr 2; omega)
      split
      · split
        · rfl
        · exact this
      · exact this

end Ferlium.Intern
