import Verif.Model.Budget
import Mathlib.Tactic

/-! Optimizer growth: C48. -/
namespace Ferlium.Budget.Props
open Ferlium.Budget

variable {K : Type} [DecidableEq K]

/-- **C48 (the limits).** For every machine-word function count the limits are the larger of the constant and the
multiple, the multiple being capped at the largest machine word instead of overflowing. -/
theorem C48_limits (n : Nat) (h : n < 2^64) :
    specializationLimit n = max 512 (min (4 * n) (2^64 - 1)) ∧
    ownedVariantLimit n = max 256 (min (2 * n) (2^64 - 1)) ∧
    specializationLimit n < 2^64 ∧ ownedVariantLimit n < 2^64 := by
  unfold specializationLimit ownedVariantLimit satMul
  simp only []
  refine ⟨?_, ?_, ?_, ?_⟩ <;> split <;> omega

theorem specializationFor_created (limit : Nat) (T : Table K) (r : Request K) (h : T.created ≤ limit) :
    (specializationFor limit T r).1.created ≤ limit := by
  unfold specializationFor getOrCreate
  split
  · exact h
  · rename_i hc
    split
    · exact h
    · split
      · exact h
      · split
        · exact h
        · cases r.duplicate <;> simp only [] <;> omega

/-- **C48 (specializations).** Whatever sequence of requests the call sites make, the number of specialised functions
created never exceeds the limit. -/
theorem C48_specializations (n : Nat) (rs : List (Request K)) :
    (serve (specializationLimit n) Table.empty rs).created ≤ specializationLimit n := by
  suffices ∀ T : Table K, T.created ≤ specializationLimit n →
      (serve (specializationLimit n) T rs).created ≤ specializationLimit n from this _ (Nat.zero_le _)
  induction rs with
  | nil => intro T h; exact h
  | cons r rs ih => intro T h; exact ih _ (specializationFor_created _ _ _ h)

theorem specializationFor_cache (limit : Nat) (T : Table K) (r : Request K) (k : K) (id : Nat)
    (h : T.cache k = some id) : (specializationFor limit T r).1.cache k = some id := by
  unfold specializationFor getOrCreate
  split
  · exact h
  · rename_i hc
    have hk : k ≠ r.key := fun e => by rw [e, hc] at h; cases h
    split
    · exact h
    · split
      · exact h
      · split
        · exact h
        · cases r.duplicate <;> simp [hk, h]

theorem serve_cache (limit : Nat) (rs : List (Request K)) (T : Table K) (k : K) (id : Nat)
    (h : T.cache k = some id) : (serve limit T rs).cache k = some id := by
  induction rs generalizing T with
  | nil => exact h
  | cons r rs ih => exact ih _ (specializationFor_cache _ _ _ _ _ h)

/-- **C48 (stability).** Once a specialization was given out for a key, every later request for that key gets the same
one, after any requests in between and also when the limit has been reached. -/
theorem C48_specialization_stable (limit : Nat) (T T' : Table K) (r r' : Request K) (id : Nat) (rs : List (Request K))
    (h : specializationFor limit T r = (T', some id)) (hk : r'.key = r.key) :
    (specializationFor limit (serve limit T' rs) r').2 = some id := by
  have hc : T'.cache r.key = some id := by
    unfold specializationFor getOrCreate at h
    split at h
    · rename_i id' hc
      simp only [Prod.mk.injEq, Option.some.injEq] at h
      rw [← h.1, hc, h.2]
    · rename_i hc
      split_ifs at h <;> try simp at h
      cases hd : r.duplicate <;> simp [hd] at h <;> rw [← h.1, ← h.2] <;> simp
  have := serve_cache limit rs T' _ _ hc
  unfold specializationFor
  rw [hk, this]

example : (specializationFor 1 (Table.empty : Table Nat) ⟨3, true, none⟩).2 = some 0 ∧
    (specializationFor 1 (specializationFor 1 (Table.empty : Table Nat) ⟨3, true, none⟩).1 ⟨4, true, none⟩).2 = none := by
  decide

/-! ### Owned-argument variants -/

/-- What holds between requests. -/
structure Inv (U : Finset K) (F : Factory K) : Prop where
  active_nodup : F.active.Nodup
  active_sub : ∀ k ∈ F.active, k ∈ U
  gen_nodup : F.generated.Nodup
  gen_cached : ∀ k ∈ F.generated, F.cache.lookup k ≠ none
  gen_inactive : ∀ k ∈ F.active, k ∉ F.generated

theorem active_le {U : Finset K} {F : Factory K} (I : Inv U F) : F.active.length ≤ U.card := by
  have : F.active.toFinset ⊆ U := fun k hk => I.active_sub k (by simpa using hk)
  have := Finset.card_le_card this
  rwa [List.toFinset_card_of_nodup I.active_nodup] at this

/-- What one request guarantees. -/
def Good (U : Finset K) (limit : Nat) (F F' : Factory K) : Prop :=
  Inv U F' ∧ F'.active = F.active ∧
    F'.generated.length ≤ max F.generated.length (limit + U.card - 1 - F.active.length)

theorem lookup_cons (k k' : K) (v : Option Nat) (l : List (K × Option Nat)) (h : l.lookup k ≠ none) :
    List.lookup k ((k', v) :: l) ≠ none := by
  rw [List.lookup_cons]
  split
  · simp
  · exact h

theorem variant_good (sinks : K → Option (List K)) (limit : Nat) (hl : 1 ≤ limit) (U : Finset K)
    (hU : ∀ k ∈ U, ∀ ks, sinks k = some ks → ∀ k' ∈ ks, k' ∈ U) (fuel : Nat) :
    (∀ F key F' r, Inv U F → key ∈ U → variantFor sinks limit fuel F key = some (F', r) → Good U limit F F') ∧
    (∀ F ks F' r, Inv U F → (∀ k ∈ ks, k ∈ U) → forwardAll sinks limit fuel F ks = some (F', r) →
      Good U limit F F') := by
  induction fuel with
  | zero => exact ⟨fun _ _ _ _ _ _ h => by simp [variantFor] at h, fun _ _ _ _ _ _ h => by simp [forwardAll] at h⟩
  | succ fuel ih =>
    refine ⟨fun F key F' r I hk h => ?_, fun F ks F' r I hks h => ?_⟩
    · rw [variantFor] at h
      split at h
      · simp only [Option.some.injEq, Prod.mk.injEq] at h
        obtain ⟨rfl, _⟩ := h
        exact ⟨I, rfl, le_max_left _ _⟩
      · rename_i hnc
        split at h
        · simp only [Option.some.injEq, Prod.mk.injEq] at h
          obtain ⟨rfl, _⟩ := h
          exact ⟨I, rfl, le_max_left _ _⟩
        · rename_i hcond
          push Not at hcond
          obtain ⟨hlen, hna⟩ := hcond
          have hng : key ∉ F.generated := fun hg => I.gen_cached key hg hnc
          have I1 : Inv U { F with active := key :: F.active } :=
            ⟨List.nodup_cons.mpr ⟨hna, I.active_nodup⟩,
             fun k hk' => by
               rcases List.mem_cons.mp hk' with e | e
               · exact e ▸ hk
               · exact I.active_sub k e,
             I.gen_nodup, I.gen_cached,
             fun k hk' => by
               rcases List.mem_cons.mp hk' with e | e
               · exact e ▸ hng
               · exact I.gen_inactive k e⟩
          have ha := active_le I1
          simp only [List.length_cons] at ha
          simp only [] at h
          split at h
          · simp only [Option.some.injEq, Prod.mk.injEq] at h
            obtain ⟨rfl, _⟩ := h
            have e : (key :: F.active).erase key = F.active := by simp
            refine ⟨⟨by rw [e]; exact I.active_nodup, by rw [e]; exact I.active_sub, I.gen_nodup,
              fun k hk' => lookup_cons _ _ _ _ (I.gen_cached k hk'), by rw [e]; exact I.gen_inactive⟩, e,
              le_max_left _ _⟩
          · rename_i fs hs
            split at h
            · simp at h
            · rename_i F2 ok hf
              obtain ⟨I2, ea, hb⟩ := ih.2 _ _ _ _ I1 (fun k' hk' => hU key hk fs hs k' hk') hf
              simp only [] at ea hb
              simp only [List.length_cons] at hb
              have e : F2.active.erase key = F.active := by rw [ea]; simp
              have hng2 : key ∉ F2.generated := I2.gen_inactive key (by rw [ea]; simp)
              have hinact : ∀ k ∈ F.active, k ∉ F2.generated :=
                fun k hk' => I2.gen_inactive k (by rw [ea]; simp [hk'])
              split at h
              · simp only [Option.some.injEq, Prod.mk.injEq] at h
                obtain ⟨rfl, _⟩ := h
                refine ⟨⟨by rw [e]; exact I.active_nodup, by rw [e]; exact I.active_sub,
                  List.nodup_cons.mpr ⟨hng2, I2.gen_nodup⟩, ?_, ?_⟩, e, ?_⟩
                · intro k hk'
                  rcases List.mem_cons.mp hk' with e' | e'
                  · subst e'; simp
                  · exact lookup_cons _ _ _ _ (I2.gen_cached k e')
                · intro k hk'
                  rw [e] at hk'
                  intro hm
                  rcases List.mem_cons.mp hm with e' | e'
                  · exact hna (e' ▸ hk')
                  · exact hinact k hk' e'
                · simp only [List.length_cons]; omega
              · simp only [Option.some.injEq, Prod.mk.injEq] at h
                obtain ⟨rfl, _⟩ := h
                refine ⟨⟨by rw [e]; exact I.active_nodup, by rw [e]; exact I.active_sub, I2.gen_nodup,
                  fun k hk' => lookup_cons _ _ _ _ (I2.gen_cached k hk'), by rw [e]; exact hinact⟩, e, ?_⟩
                simp only []; omega
    · cases ks with
      | nil =>
        simp only [forwardAll, Option.some.injEq, Prod.mk.injEq] at h
        obtain ⟨rfl, _⟩ := h
        exact ⟨I, rfl, le_max_left _ _⟩
      | cons k ks =>
        rw [forwardAll] at h
        split at h
        · simp at h
        · rename_i F1 hv
          simp only [Option.some.injEq, Prod.mk.injEq] at h
          obtain ⟨rfl, _⟩ := h
          exact ih.1 _ _ _ _ I (hks k (by simp)) hv
        · rename_i F1 id hv
          obtain ⟨I1, e1, b1⟩ := ih.1 _ _ _ _ I (hks k (by simp)) hv
          obtain ⟨I2, e2, b2⟩ := ih.2 _ _ _ _ I1 (fun k' hk' => hks k' (by simp [hk'])) h
          exact ⟨I2, e2.trans e1, by rw [e1] at b2; omega⟩

/-- **C48 (owned-argument variants), partial.** Whatever the callers request, each variant is generated at most once,
and the number generated is below the limit plus the number of different variants that exist.  Missing: the limit
itself, which nested forwarding exceeds (`C48_owned_variants_violated`). -/
theorem C48_owned_variants_partial (sinks : K → Option (List K)) (n fuel : Nat) (U : Finset K)
    (hU : ∀ k ∈ U, ∀ ks, sinks k = some ks → ∀ k' ∈ ks, k' ∈ U) (reqs : List K) (hr : ∀ k ∈ reqs, k ∈ U)
    (F : Factory K) (h : requestAll sinks (ownedVariantLimit n) fuel Factory.empty reqs = some F) :
    F.generated.Nodup ∧ F.generated.length ≤ ownedVariantLimit n + U.card - 1 := by
  have hl : 1 ≤ ownedVariantLimit n := by unfold ownedVariantLimit satMul; simp only []; split <;> omega
  suffices ∀ (reqs : List K) (F0 : Factory K), (∀ k ∈ reqs, k ∈ U) → Inv U F0 → F0.active = [] →
      F0.generated.length ≤ ownedVariantLimit n + U.card - 1 →
      requestAll sinks (ownedVariantLimit n) fuel F0 reqs = some F →
      F.generated.Nodup ∧ F.generated.length ≤ ownedVariantLimit n + U.card - 1 from
    this reqs Factory.empty hr ⟨by simp [Factory.empty], by simp [Factory.empty], by simp [Factory.empty],
      by simp [Factory.empty], by simp [Factory.empty]⟩ rfl (by simp [Factory.empty]) h
  intro reqs
  induction reqs with
  | nil =>
    intro F0 _ I _ hb h
    simp only [requestAll, Option.some.injEq] at h
    subst h
    exact ⟨I.gen_nodup, hb⟩
  | cons k ks ih =>
    intro F0 hr I ha hb h
    rw [requestAll] at h
    split at h
    · simp at h
    · rename_i F1 r hv
      obtain ⟨I1, e1, b1⟩ := (variant_good sinks _ hl U hU fuel).1 _ _ _ _ I (hr k (by simp)) hv
      rw [ha] at b1 e1
      exact ih F1 (fun k' hk' => hr k' (by simp [hk'])) I1 e1 (by simp only [List.length_nil] at b1; omega) h

/-- Functions for the violation: variant 0 forwards to 1, variant 1 forwards to 2; nothing else forwards. -/
def chain (k : Nat) : Option (List Nat) := if k = 0 then some [1] else if k = 1 then some [2] else some []

theorem variantFor_leaf (limit fuel : Nat) (F : Factory Nat) (k : Nat) (hk : 2 ≤ k) (ha : k ∉ F.active)
    (hl : F.generated.length < limit) (hc : F.cache.lookup k = none) :
    variantFor chain limit (fuel + 2) F k =
      some (⟨k :: F.generated, (k, some F.generated.length) :: F.cache, F.active⟩, some F.generated.length) := by
  have hs : chain k = some [] := by unfold chain; rw [if_neg (by omega), if_neg (by omega)]
  have hn : ¬ (F.generated.length ≥ limit ∨ k ∈ F.active) := by
    intro h; rcases h with h | h
    · omega
    · exact ha h
  rw [variantFor]
  simp only [hc, hn, if_false, hs, forwardAll, if_true, List.erase_cons_head]

theorem requestAll_leaves (limit : Nat) (m j : Nat) (F : Factory Nat) (ha : F.active = []) (hj : F.generated.length = j)
    (hc : ∀ k, k < 3 ∨ 3 + j ≤ k → F.cache.lookup k = none) (hm : j + m ≤ limit - 1) (hl : 1 ≤ limit)
    (rest : List Nat) :
    ∃ F', F'.active = [] ∧ F'.generated.length = j + m ∧ (∀ k, k < 3 → F'.cache.lookup k = none) ∧
      requestAll chain limit 10 F (List.range' (3 + j) m ++ rest) = requestAll chain limit 10 F' rest := by
  induction m generalizing j F with
  | zero => exact ⟨F, ha, by omega, fun k hk => hc k (.inl hk), by simp⟩
  | succ m ih =>
    have hstep := variantFor_leaf limit 8 F (3 + j) (by omega) (by simp [ha]) (by omega) (hc _ (.inr (le_refl _)))
    obtain ⟨F', h1, h2, h3, h4⟩ := ih (j + 1)
      ⟨(3 + j) :: F.generated, ((3 + j), some F.generated.length) :: F.cache, F.active⟩ ha (by simp [hj])
      (by
        intro k hk
        rw [List.lookup_cons]
        have hne : k ≠ 3 + j := by omega
        simp only [beq_eq_false_iff_ne.mpr hne]
        exact hc k (by omega))
      (by omega)
    refine ⟨F', h1, by omega, h3, ?_⟩
    rw [List.range'_succ, List.cons_append, requestAll, hstep]
    exact h4

/-- **C48 violated (owned-argument variants).** For every module size there are requests that take the number of
generated variants over the limit: when one slot is left, a request whose body forwards twice generates three. -/
theorem C48_owned_variants_violated (n : Nat) :
    ∃ reqs F, requestAll chain (ownedVariantLimit n) 10 Factory.empty reqs = some F ∧
      F.generated.length = ownedVariantLimit n + 2 := by
  have hl : 1 ≤ ownedVariantLimit n := by unfold ownedVariantLimit satMul; simp only []; split <;> omega
  generalize ownedVariantLimit n = limit at hl
  obtain ⟨F, ha, hg, hc, hr⟩ := requestAll_leaves limit (limit - 1) 0 Factory.empty rfl rfl
    (fun _ _ => by simp [Factory.empty]) (by omega) hl [0]
  refine ⟨List.range' 3 (limit - 1) ++ [0], ?_⟩
  rw [hr]
  have hn : ¬ (F.generated.length ≥ limit) := by omega
  have c0 := hc 0 (by omega)
  have c1 := hc 1 (by omega)
  have c2 := hc 2 (by omega)
  have key : ∃ c a, requestAll chain limit 10 F [0] = some ⟨0 :: 1 :: 2 :: F.generated, c, a⟩ := by
    refine ⟨?_, ?_, ?_⟩
    rotate_left 2
    rw [requestAll]
    rw [variantFor]
    simp only [c0, hn, ha, List.not_mem_nil, or_false, if_false]
    rw [show chain 0 = some [1] from rfl]
    simp only []
    rw [forwardAll, variantFor]
    simp only [c1, hn, List.mem_singleton, if_false, Nat.one_ne_zero, or_false]
    rw [show chain 1 = some [2] from rfl]
    simp only []
    rw [forwardAll, variantFor_leaf limit 4 ⟨F.generated, F.cache, [1, 0]⟩ 2 (by omega) (by simp) (by simp only []; omega) c2]
    simp only [forwardAll, if_true, requestAll]
    rfl
  obtain ⟨c, a, h⟩ := key
  exact ⟨_, h, by simp only [List.length_cons]; omega⟩

/-- The hypotheses of the partial theorem: a closed set of keys with recursion between two variants. -/
example : ∃ F, requestAll (fun k : Nat => some [1 - k]) (ownedVariantLimit 1) 20 Factory.empty [0, 1] = some F ∧
    ∀ k ∈ ({0, 1} : Finset Nat), ∀ k' ∈ [1 - k], k' ∈ ({0, 1} : Finset Nat) := by
  have h : (requestAll (fun k : Nat => some [1 - k]) (ownedVariantLimit 1) 20 Factory.empty [0, 1]).isSome = true := by
    decide
  obtain ⟨F, hF⟩ := Option.isSome_iff_exists.mp h
  exact ⟨F, hF, by decide⟩

end Ferlium.Budget.Props
