import Verif.Model.Default
import Verif.Props.Resolve

/-!
C79: the choice of default types.
-/
namespace Ferlium.Default
open Ferlium.Unify

mutual

theorem mem_tyVars {v : Nat} : ∀ t : Ty, v ∈ tyVars t ↔ t.contains v = true
  | .never => by simp [tyVars, Ty.contains]
  | .var w => by simp [tyVars, Ty.contains]
  | .node _ args => by rw [tyVars, Ty.contains]; exact mem_argsVars args

theorem mem_argsVars {v : Nat} : ∀ a : Args, v ∈ argsVars a ↔ a.contains v = true
  | .nil => by simp [argsVars, Args.contains]
  | .cons _ t rest => by rw [argsVars, Args.contains, List.mem_append, mem_tyVars t, mem_argsVars rest, Bool.or_eq_true]

end

/-- The variable occurs in the constraint. -/
def In (v : Nat) : Con → Prop
  | .trait _ ins outs => (∃ t ∈ ins, t.contains v = true) ∨ ∃ t ∈ outs, t.contains v = true
  | .variant _ subject payload => subject.contains v = true ∨ payload.contains v = true
  | .layout payload => payload.contains v = true
  | .other parts => ∃ t ∈ parts, t.contains v = true

theorem in_types {v : Nat} {c : Con} : In v c ↔ ∃ t ∈ c.types, t.contains v = true := by
  cases c <;> simp [In, Con.types, or_and_right, exists_or]

theorem mem_vars {v : Nat} {c : Con} : v ∈ c.vars ↔ In v c := by
  simp [Con.vars, in_types, mem_tyVars]

theorem mentions_iff {v : Nat} {c : Con} : c.mentions v = true ↔ In v c := by
  simp [Con.mentions, in_types]

/-! ### The boundary -/

/-- The constraint is linked to one of the variables: it has it, or it has a variable in common with one that is linked. -/
inductive Linked (seeds : List Nat) (cs : List Con) : Nat → Prop
  | seed (i v : Nat) (c : Con) : cs[i]? = some c → v ∈ seeds → In v c → Linked seeds cs i
  | step (i j v : Nat) (c c' : Con) : Linked seeds cs i → cs[i]? = some c → In v c → cs[j]? = some c' → In v c' → Linked seeds cs j

theorem mem_touched {vs : List Nat} {cs : List Con} {i : Nat} : i ∈ touched vs cs ↔ ∃ c v, cs[i]? = some c ∧ v ∈ vs ∧ In v c := by
  unfold touched
  rw [List.mem_filterMap]
  constructor
  · rintro ⟨p, hp, he⟩
    split at he
    · rename_i hv
      cases he
      rw [List.any_eq_true] at hv
      obtain ⟨v, hv, hm⟩ := hv
      obtain ⟨n, hn, rfl⟩ := List.getElem_of_mem hp
      simp only [List.length_zip, List.length_range, min_self] at hn
      exact ⟨cs[n], v, by simp [hn], hv, mentions_iff.1 (by simpa using hm)⟩
    · cases he
  · rintro ⟨c, v, hc, hv, hin⟩
    obtain ⟨hlt, hget⟩ := List.getElem?_eq_some_iff.1 hc
    refine ⟨(i, c), List.mem_iff_getElem.2 ⟨i, by simpa using hlt, by simp [hget]⟩, ?_⟩
    rw [if_pos (List.any_eq_true.2 ⟨v, hv, mentions_iff.2 hin⟩)]

theorem touched_nodup (vs : List Nat) (cs : List Con) : (touched vs cs).Nodup ∧ ∀ i ∈ touched vs cs, i < cs.length := by
  constructor
  · have hsub : (touched vs cs).Sublist (List.range cs.length) := by
      unfold touched
      have : ∀ (l : List (Nat × Con)), (l.filterMap fun p => if vs.any (p.2.mentions ·) then some p.1 else none).Sublist (l.map (·.1)) := by
        intro l
        induction l with
        | nil => simp
        | cons p l ih =>
          rw [List.filterMap_cons, List.map_cons]
          split
          · exact ih.cons _
          · rename_i hq
            split at hq
            · cases hq
              exact ih.cons_cons _
            · cases hq
      have := this ((List.range cs.length).zip cs)
      rwa [List.map_fst_zip (by simp)] at this
    exact hsub.nodup List.nodup_range
  · intro i hi
    obtain ⟨c, v, hc, -⟩ := mem_touched.1 hi
    exact (List.getElem?_eq_some_iff.1 hc).1

theorem mem_reached {cs : List Con} {ins : List Nat} {v : Nat} : v ∈ reachedVars cs ins ↔ ∃ i ∈ ins, ∃ c, cs[i]? = some c ∧ In v c := by
  unfold reachedVars
  rw [List.mem_flatMap]
  constructor
  · rintro ⟨i, hi, hv⟩
    cases hc : cs[i]? with
    | none => simp [hc] at hv
    | some c => exact ⟨i, hi, c, hc, mem_vars.1 (by simpa [hc] using hv)⟩
  · rintro ⟨i, hi, c, hc, hin⟩
    exact ⟨i, hi, by simpa [hc] using mem_vars.2 hin⟩

theorem loop_exact (seeds : List Nat) (cs : List Con) : ∀ (fuel : Nat) (ins : List Nat), ins.Nodup → (∀ i ∈ ins, i < cs.length) →
    (∀ i ∈ ins, Linked seeds cs i) → (∀ i c v, cs[i]? = some c → v ∈ seeds → In v c → i ∈ ins) →
    (∀ i ∈ ins, ∃ c v, cs[i]? = some c ∧ In v c) → cs.length < fuel + ins.length →
    ∃ l, accessibleLoop cs fuel ins = some l ∧ ∀ i, i ∈ l ↔ Linked seeds cs i
  | 0, ins, hnd, hlt, _, _, _, hf => by
    have := (hnd.subperm (l₂ := List.range cs.length) fun i hi => List.mem_range.2 (hlt i hi)).length_le
    rw [List.length_range] at this
    omega
  | fuel + 1, ins, hnd, hlt, hl, hs, hv, hf => by
    have hsub : ∀ i ∈ ins, i ∈ touched (reachedVars cs ins) cs := by
      intro i hi
      obtain ⟨c, v, hc, hin⟩ := hv i hi
      exact mem_touched.2 ⟨c, v, hc, mem_reached.2 ⟨i, hi, c, hc, hin⟩, hin⟩
    have hsp := hnd.subperm hsub
    rw [accessibleLoop]
    split
    · rename_i heq
      have hperm := hsp.perm_of_length_le (by omega)
      refine ⟨ins, rfl, fun i => ⟨hl i, fun h => ?_⟩⟩
      induction h with
      | seed i v c hc hv hin => exact hs i c v hc hv hin
      | step i j v c c' _ hc hin hc' hin' ih =>
        exact hperm.mem_iff.2 (mem_touched.2 ⟨c', v, hc', mem_reached.2 ⟨i, ih, c, hc, hin⟩, hin'⟩)
    · rename_i hne
      have := hsp.length_le
      refine loop_exact seeds cs fuel _ (touched_nodup _ _).1 (touched_nodup _ _).2 ?_ (fun i c v hc hv hin => hsub i (hs i c v hc hv hin)) ?_ (by omega)
      · intro j hj
        obtain ⟨c', v, hc', hv', hin'⟩ := mem_touched.1 hj
        obtain ⟨i, hi, c, hc, hin⟩ := mem_reached.1 hv'
        exact .step i j v c c' (hl i hi) hc hin hc' hin'
      · intro j hj
        obtain ⟨c', v, hc', -, hin'⟩ := mem_touched.1 hj
        exact ⟨c', v, hc', hin'⟩

/-- The boundary consists of exactly the constraints which are linked to the variables through shared variables. -/
theorem C79_boundary_exact (seeds : List Nat) (cs : List Con) : ∃ l, accessible seeds cs = some l ∧ ∀ i, i ∈ l ↔ Linked seeds cs i := by
  unfold accessible
  split
  · rename_i h
    rw [List.isEmpty_iff] at h
    subst h
    refine ⟨[], rfl, fun i => ⟨(fun h => nomatch h), fun h => ?_⟩⟩
    induction h with
    | seed i v c _ hv _ => cases hv
    | step _ _ _ _ _ _ _ _ _ _ ih => cases ih
  · refine loop_exact seeds cs _ _ (touched_nodup _ _).1 (touched_nodup _ _).2 ?_ ?_ ?_ (by omega)
    · intro i hi
      obtain ⟨c, v, hc, hv, hin⟩ := mem_touched.1 hi
      exact .seed i v c hc hv hin
    · intro i c v hc hv hin
      exact mem_touched.2 ⟨c, v, hc, hv, hin⟩
    · intro i hi
      obtain ⟨c, v, hc, -, hin⟩ := mem_touched.1 hi
      exact ⟨c, v, hc, hin⟩

/-- A chain of constraints: from the variable 0 the first and the second are reached, the third is not. -/
example : accessible [0] [.trait 0 [.var 0] [.var 1], .layout (.var 1), .other [.var 2]] = some [0, 1] := rfl

/-! ### Numbers -/

/-- The variable may have a default: it is a number, some constraint is about it alone, and none forbids it. -/
structure Eligible (num : Nat) (cs : List Con) (v : Nat) : Prop where
  number : ∃ ins outs, .trait num (.var v :: ins) outs ∈ cs
  simple : ∃ t, .trait t [.var v] [] ∈ cs
  outputs : ∀ t ins outs, .trait t ins outs ∈ cs → (∃ u ∈ outs, u.contains v = true) → ∃ u ∈ ins, u.contains v = true
  parts : ∀ parts, .other parts ∈ cs → ∀ u ∈ parts, u.contains v = false

/-- There are implementations for the type of all traits asked of the variable alone. -/
def Fits (has : Nat → Ty → Bool) (cs : List Con) (v : Nat) (ty : Ty) : Prop := ∀ t, .trait t [.var v] [] ∈ cs → has t ty = true

theorem forbids_iff {cs : List Con} {v : Nat} : cs.any (forbids v) = false ↔
    (∀ t ins outs, .trait t ins outs ∈ cs → (∃ u ∈ outs, u.contains v = true) → ∃ u ∈ ins, u.contains v = true) ∧
      ∀ parts, .other parts ∈ cs → ∀ u ∈ parts, u.contains v = false := by
  rw [List.any_eq_false]
  constructor
  · intro h
    refine ⟨fun t ins outs hm ⟨u, hu, huv⟩ => ?_, fun parts hm u hu => ?_⟩
    · have := h _ hm
      simp only [forbids, Bool.and_eq_true, List.any_eq_true, Bool.not_eq_true', not_and, Bool.not_eq_false] at this
      simpa using this ⟨u, hu, huv⟩
    · have := h _ hm
      simp only [forbids, List.any_eq_true, not_exists, not_and, Bool.not_eq_true] at this
      exact this u hu
  · rintro ⟨h1, h2⟩ c hm
    cases c with
    | trait t ins outs =>
      simp only [forbids, Bool.and_eq_true, List.any_eq_true, Bool.not_eq_true', not_and, Bool.not_eq_false]
      intro ho
      exact h1 t ins outs hm ho
    | variant _ _ _ => simp [forbids]
    | layout => simp [forbids]
    | other parts =>
      simp only [forbids, List.any_eq_true, not_exists, not_and, Bool.not_eq_true]
      exact h2 parts hm

theorem numeric_iff {num : Nat} {cs : List Con} {v : Nat} :
    cs.any (numeric num v) = true ↔ ∃ ins outs, .trait num (.var v :: ins) outs ∈ cs := by
  rw [List.any_eq_true]
  constructor
  · rintro ⟨c, hm, h⟩
    unfold numeric at h
    split at h
    · simp only [Bool.and_eq_true, beq_iff_eq] at h
      obtain ⟨rfl, rfl⟩ := h
      exact ⟨_, _, hm⟩
    · cases h
  · rintro ⟨ins, outs, hm⟩
    exact ⟨_, hm, by simp [numeric]⟩

/-- What the choice so far means. -/
def Chosen (has : Nat → Ty → Bool) (num : Nat) (all seen : List Con) (chosen : List (Nat × Nat)) : Prop :=
  ∀ v, (chosen.lookup v = none ↔ ¬ (all.any (forbids v) = false ∧ all.any (numeric num v) = true ∧ ∃ t, .trait t [.var v] [] ∈ seen)) ∧
    ∀ i, chosen.lookup v = some i → (i = 0 ↔ Fits has seen v integer) ∧ (Fits has seen v float → i ≤ 1) ∧ i ≤ 2

theorem advance_spec (has : Nat → Ty → Bool) (t i : Nat) (h : i ≤ 2) :
    (advance has t 2 i = 0 ↔ i = 0 ∧ has t integer = true) ∧ (has t float = true → i ≤ 1 → advance has t 2 i ≤ 1) ∧ advance has t 2 i ≤ 2 := by
  rcases (by omega : i = 0 ∨ i = 1 ∨ i = 2) with rfl | rfl | rfl <;> cases h1 : has t integer <;> cases h2 : has t float <;>
    simp [advance, candidates, h1, h2]

theorem consider_chosen (has : Nat → Ty → Bool) (num : Nat) (all seen : List Con) (chosen : List (Nat × Nat)) (c : Con)
    (h : Chosen has num all seen chosen) : Chosen has num all (seen ++ [c]) (consider has num all chosen c) := by
  intro v
  by_cases hc : ∃ t, c = .trait t [.var v] []
  · obtain ⟨t, rfl⟩ := hc
    have hfit : ∀ ty, Fits has (seen ++ [.trait t [.var v] []]) v ty ↔ Fits has seen v ty ∧ has t ty = true := by
      intro ty
      constructor
      · intro hf
        exact ⟨fun t' ht' => hf t' (by simp [ht']), hf t (by simp)⟩
      · rintro ⟨hf, ht⟩ t' ht'
        rcases List.mem_append.1 ht' with ht' | ht'
        · exact hf t' ht'
        · simp at ht'
          rw [ht']
          exact ht
    rw [consider]
    split
    · rename_i hfo
      obtain ⟨h1, h2⟩ := h v
      have hn : chosen.lookup v = none := h1.2 (by rw [hfo]; simp)
      refine ⟨⟨fun _ => by rw [hfo]; simp, fun _ => hn⟩, fun i hi => by rw [hn] at hi; cases hi⟩
    · rename_i hfo
      rw [Bool.not_eq_true] at hfo
      split
      · rename_i hnu
        simp only [Bool.not_eq_true'] at hnu
        obtain ⟨h1, h2⟩ := h v
        have hn : chosen.lookup v = none := h1.2 (by rw [hnu]; simp)
        exact ⟨⟨fun _ => by rw [hnu]; simp, fun _ => hn⟩, fun i hi => by rw [hn] at hi; cases hi⟩
      · rename_i hnu
        simp only [Bool.not_eq_true', Bool.not_eq_false] at hnu
        rw [List.lookup_cons_self]
        refine ⟨⟨nofun, fun hx => absurd ⟨hfo, hnu, t, by simp⟩ hx⟩, ?_⟩
        intro i hi
        cases hi
        obtain ⟨h1, h2⟩ := h v
        rw [hfit, hfit]
        cases hl : chosen.lookup v with
        | none =>
          have hno : ¬ ∃ t, .trait t [.var v] [] ∈ seen := fun hx => (h1.1 hl) ⟨hfo, hnu, hx⟩
          have hf : ∀ ty, Fits has seen v ty := fun ty t' ht' => absurd ⟨t', ht'⟩ hno
          obtain ⟨a1, a2, a3⟩ := advance_spec has t 0 (by omega)
          simp only [Option.getD_none]
          exact ⟨by rw [a1]; simp [hf], fun hx => a2 hx.2 (by omega), a3⟩
        | some j =>
          obtain ⟨b1, b2, b3⟩ := h2 j hl
          obtain ⟨a1, a2, a3⟩ := advance_spec has t j b3
          simp only [Option.getD_some]
          exact ⟨by rw [a1, b1], fun hx => a2 hx.2 (b2 hx.1), a3⟩
  · -- a constraint about something else
    have hseen : ∀ t, Con.trait t [.var v] [] ∈ seen ++ [c] ↔ Con.trait t [.var v] [] ∈ seen := by
      intro t
      rw [List.mem_append, List.mem_singleton]
      exact ⟨fun hx => hx.elim id fun hx => absurd ⟨t, hx.symm⟩ hc, .inl⟩
    have hsame : (consider has num all chosen c).lookup v = chosen.lookup v := by
      unfold consider
      split
      · rename_i t w
        split
        · rfl
        · split
          · rfl
          · rw [List.lookup_cons]
            have : (v == w) = false := by
              rw [beq_eq_false_iff_ne]
              rintro rfl
              exact hc ⟨t, rfl⟩
            rw [this]
      · rfl
    rw [hsame]
    have := h v
    simp only [Fits, hseen]
    exact this

theorem foldl_chosen (has : Nat → Ty → Bool) (num : Nat) (all : List Con) : ∀ (rest seen : List Con) (chosen : List (Nat × Nat)),
    Chosen has num all seen chosen → Chosen has num all (seen ++ rest) (rest.foldl (consider has num all) chosen)
  | [], seen, chosen, h => by simpa using h
  | c :: rest, seen, chosen, h => by
    have := foldl_chosen has num all rest (seen ++ [c]) _ (consider_chosen has num all seen chosen c h)
    rw [List.foldl_cons]
    simpa using this

/-- A number becomes `int` exactly if this has all the implementations, otherwise `float` if that has them; what may not have a
default stays.  Missing: that it stays if neither has them. -/
theorem C79_numbers_partial (has : Nat → Ty → Bool) (num : Nat) (cs : List Con) (hne : ∀ t outs, .trait t [] outs ∉ cs) :
    ∃ r, numDefaults has num cs = some r ∧ ∀ v,
      (¬ Eligible num cs v → r v = none) ∧
      (Eligible num cs v → (r v = some integer ↔ Fits has cs v integer) ∧
        (¬ Fits has cs v integer → Fits has cs v float → r v = some float) ∧ (r v = none ∨ r v = some integer ∨ r v = some float)) := by
  have hch := foldl_chosen has num cs cs [] [] (by
    intro v
    exact ⟨⟨fun _ h => by simpa using h.2.2, fun _ => rfl⟩, fun i hi => by cases hi⟩)
  rw [List.nil_append] at hch
  refine ⟨fun v => ((cs.foldl (consider has num cs) []).lookup v).bind (candidates[·]?), ?_, ?_⟩
  · unfold numDefaults
    rw [if_neg]
    rw [Bool.not_eq_true, List.any_eq_false]
    intro c hm
    split
    · exact absurd hm (hne _ _)
    · simp
  · intro v
    obtain ⟨h1, h2⟩ := hch v
    have hel : Eligible num cs v ↔ (cs.any (forbids v) = false ∧ cs.any (numeric num v) = true ∧ ∃ t, .trait t [.var v] [] ∈ cs) := by
      rw [forbids_iff, numeric_iff]
      exact ⟨fun h => ⟨⟨h.outputs, h.parts⟩, h.number, h.simple⟩, fun h => ⟨h.2.1, h.2.2, h.1.1, h.1.2⟩⟩
    constructor
    · intro hno
      simp only
      rw [h1.2 (fun h => hno (hel.2 h))]
      rfl
    · intro he
      simp only
      cases hl : (cs.foldl (consider has num cs) []).lookup v with
      | none => exact absurd (hel.1 he) (h1.1 hl)
      | some i =>
        obtain ⟨b1, b2, b3⟩ := h2 i hl
        rw [Option.bind_some]
        rw [← b1]
        rcases (by omega : i = 0 ∨ i = 1 ∨ i = 2) with rfl | rfl | rfl
        · simp [candidates]
        · simp [candidates, integer, float]
        · refine ⟨by simp [candidates], fun _ hf => absurd (b2 hf) (by omega), by simp [candidates]⟩

/-- As long as one of the two types fits, the order of the constraints does not matter. -/
theorem C79_order_partial (has : Nat → Ty → Bool) (num : Nat) {cs cs' : List Con} (hp : cs.Perm cs') (hne : ∀ t outs, .trait t [] outs ∉ cs)
    (v : Nat) (hf : Fits has cs v integer ∨ Fits has cs v float) :
    (numDefaults has num cs).map (· v) = (numDefaults has num cs').map (· v) := by
  obtain ⟨r, hr, h⟩ := C79_numbers_partial has num cs hne
  obtain ⟨r', hr', h'⟩ := C79_numbers_partial has num cs' (fun t outs hm => hne t outs (hp.mem_iff.2 hm))
  rw [hr, hr']
  simp only [Option.map_some, Option.some.injEq]
  have hfit : ∀ ty, Fits has cs v ty ↔ Fits has cs' v ty := fun ty =>
    ⟨fun h t ht => h t (hp.mem_iff.2 ht), fun h t ht => h t (hp.mem_iff.1 ht)⟩
  have hel : Eligible num cs v ↔ Eligible num cs' v := by
    constructor
    · rintro ⟨⟨i, o, a⟩, ⟨t, b⟩, c, d⟩
      exact ⟨⟨i, o, hp.mem_iff.1 a⟩, ⟨t, hp.mem_iff.1 b⟩, fun t i o hm => c t i o (hp.mem_iff.2 hm), fun p hm => d p (hp.mem_iff.2 hm)⟩
    · rintro ⟨⟨i, o, a⟩, ⟨t, b⟩, c, d⟩
      exact ⟨⟨i, o, hp.mem_iff.2 a⟩, ⟨t, hp.mem_iff.2 b⟩, fun t i o hm => c t i o (hp.mem_iff.1 hm), fun p hm => d p (hp.mem_iff.1 hm)⟩
  by_cases he : Eligible num cs v
  · obtain ⟨a1, a2, -⟩ := (h v).2 he
    obtain ⟨b1, b2, -⟩ := (h' v).2 (hel.1 he)
    by_cases hi : Fits has cs v integer
    · rw [a1.2 hi, b1.2 ((hfit _).1 hi)]
    · have hfl : Fits has cs v float := hf.resolve_left hi
      rw [a2 hi hfl, b2 (fun hx => hi ((hfit _).2 hx)) ((hfit _).1 hfl)]
  · rw [(h v).1 he, (h' v).1 (fun hx => he (hel.2 hx))]

/-- If neither type fits, the order matters: with `Num<T>, IntOnly<T>, FloatOnly<T>` the variable becomes `float`, though there is no
implementation of `IntOnly` for it; with the last two exchanged it stays. -/
theorem C79_order_violated : ∃ (has : Nat → Ty → Bool) (num : Nat) (cs cs' : List Con), cs.Perm cs' ∧ (∀ t outs, .trait t [] outs ∉ cs) ∧
    ¬ Fits has cs 0 float ∧ (numDefaults has num cs).map (· 0) = some (some float) ∧ (numDefaults has num cs').map (· 0) = some none := by
  refine ⟨fun t ty => t == 0 || (t == 1 && ty == integer) || (t == 2 && ty == float), 0,
    [.trait 0 [.var 0] [], .trait 1 [.var 0] [], .trait 2 [.var 0] []], [.trait 0 [.var 0] [], .trait 2 [.var 0] [], .trait 1 [.var 0] []],
    ?_, ?_, ?_, by rfl, by rfl⟩
  · exact .cons _ (.swap _ _ _)
  · intro t outs hm
    simp at hm
  · intro hf
    have := hf 1 (by simp)
    revert this
    decide

/-- `1.5 + x` style: only `float` fits. -/
example : ∃ r, numDefaults (fun t ty => t == 0 || ty == float) 0 [.trait 0 [.var 3] [], .trait 1 [.var 3] []] = some r ∧ r 3 = some float ∧ r 4 = none :=
  ⟨_, rfl, rfl, rfl⟩

/-! ### The default and the search for implementations -/

open Resolve in
/-- A default which fits has all the traits asked of the variable alone: the solver answers with implementations for it. -/
theorem C79_defaults_hold {S : Head → List (Option Nat) → Prop} {arity : Nat → Nat × Nat} {env : Resolve.Env} (hw : World S arity env)
    {st : State} (h : Reached S arity env st) {cs : List Con} {v : Nat} {ty : Ty} (hf : Fits (hasConcrete env st) cs v ty) {t : Nat}
    (hm : .trait t [.var v] [] ∈ cs) : (∃ r, solveImpl env st t [ty] = some (st, some r)) ∧
      ∃ d outs, Gives env.decls env.cur S false none d t [ty] outs := by
  have hx := hf t hm
  unfold hasConcrete at hx
  obtain ⟨⟨d, outs⟩, hl⟩ := Option.isSome_iff_exists.1 hx
  refine ⟨⟨(d, outs), ?_⟩, d, outs, lookup_has hw (h.ok hw) hl⟩
  unfold solveImpl
  cases env.levels <;> (rw [application, hl])

/-- `impl Foo for int` is seen by a new solver. -/
example : Resolve.World exSorts Resolve.exArity Resolve.fooEnv ∧ Fits (hasConcrete Resolve.fooEnv .new) [.trait 0 [.var 0] []] 0 integer :=
  ⟨Resolve.fooWorld, fun t ht => by
    simp at ht
    subst ht
    rfl⟩

open Resolve in
/-- `impl Num for int` and `impl<T> Show for T where Num<T>`. -/
def showEnv : Resolve.Env := ⟨[fooInt, showImpl], 0, fun _ _ => true, 129⟩

open Resolve in
theorem showWorld : World exSorts exArity showEnv where
  tidy := exTidy
  int := rfl
  formed := by
    intro d hd
    simp only [showEnv, List.mem_cons, List.not_mem_nil, or_false] at hd
    rcases hd with rfl | rfl
    · exact fooWorld.formed fooInt (by simp [fooEnv])
    · exact show_formed
  one := one_of_apart fun k k' d d' ρ ρ' h1 h2 h3 _ => by
    simp only [showEnv] at h1 h2
    rcases k with _ | _ | k <;> rcases k' with _ | _ | k' <;> simp at h1 h2 <;> subst h1 <;> subst h2 <;>
      simp [fooInt, showImpl] at h3 <;> rfl

open Resolve in
theorem show_near (made : Made) : Near showEnv exSorts made 0 none (.mk 0 []) 0 [int] [] ∧
    Near showEnv exSorts made 1 none (.mk 1 [.mk 0 []]) 1 [int] [] := by
  have h0 := Near.concrete (env := showEnv) (S := exSorts) (made := made) 0 none 0 fooInt rfl (.inl rfl) rfl
  have h0' := Near.concrete (env := showEnv) (S := exSorts) (made := made) 0 (some 1) 0 fooInt rfl (.inl rfl) rfl
  refine ⟨by simpa [fooInt] using h0, ?_⟩
  have h1 := Near.intro (env := showEnv) (S := exSorts) (made := made) 0 none 1 showImpl (fun _ => int) [.mk 0 []] rfl
    (.inl rfl) (by simp [showImpl]) (fun _ => int_plain') rfl (fun j t ins outs e hc he => by
      rcases j with _ | j
      · simp [showImpl] at hc he
        obtain ⟨rfl, rfl, rfl⟩ := hc
        subst he
        simpa [Ty.subst, showEnv, showImpl, fooInt] using h0'
      · simp at he)
  simpa [showImpl, Ty.subst] using h1

open Resolve in
/-- The default of a number depends on what was asked before: with `impl<T> Show for T where Num<T>` the variable of
`Num<T>, Show<T>` stays, although `int` has both traits; after a request about `int` it becomes `int`. -/
theorem C79_history_violated : ∃ (env : Resolve.Env) (st : State) (cs : List Con) (num v : Nat), World exSorts exArity env ∧
    Reached exSorts exArity env st ∧ (∀ d ∈ env.decls, d.pub = true) ∧ Eligible num cs v ∧
    (∀ t, .trait t [.var v] [] ∈ cs → ∃ d outs, Gives env.decls env.cur exSorts true none d t [integer] outs) ∧
    (numDefaults (hasConcrete env .new) num cs).map (· v) = some none ∧
    (numDefaults (hasConcrete env st) num cs).map (· v) = some (some integer) := by
  obtain ⟨st, he⟩ := near_found (st := .new) showWorld .new ((show_near State.new.made).2.deeper _ (by simp [showEnv]))
  have hgoal : Goal exSorts exArity 1 [int] := by
    refine ⟨by simp [exArity], fun u hu => ?_⟩
    simp only [List.mem_singleton] at hu
    subst hu
    exact int_plain'
  have hr : Reached exSorts exArity showEnv st := .impl .new hgoal he
  have hmade : ((1, [int]), .mk 1 [.mk 0 []], []) ∈ st.made := by
    rcases application_made he with h | h
    · cases h
    · exact h
  have hpub : ∀ d ∈ showEnv.decls, d.pub = true := by
    intro d hd
    simp only [showEnv, List.mem_cons, List.not_mem_nil, or_false] at hd
    rcases hd with rfl | rfl <;> rfl
  have hel : Eligible 0 [.trait 0 [.var 0] [], .trait 1 [.var 0] []] 0 := by
    refine ⟨⟨[], [], by simp⟩, ⟨0, by simp⟩, ?_, ?_⟩
    · rintro t ins outs hm ⟨u, hu, -⟩
      simp at hm
      rcases hm with ⟨-, -, rfl⟩ | ⟨-, -, rfl⟩ <;> cases hu
    · intro parts hm
      simp at hm
  refine ⟨showEnv, st, [.trait 0 [.var 0] [], .trait 1 [.var 0] []], 0, 0, showWorld, hr, hpub, hel, ?_, rfl, ?_⟩
  · intro t ht
    simp at ht
    rcases ht with rfl | rfl
    · exact ⟨_, _, ((show_near st.made).1.has showWorld (hr.ok showWorld)).public hpub none⟩
    · exact ⟨_, _, ((show_near st.made).2.has showWorld (hr.ok showWorld)).public hpub none⟩
  · obtain ⟨r, e, h⟩ := C79_numbers_partial (hasConcrete showEnv st) 0 [.trait 0 [.var 0] [], .trait 1 [.var 0] []] (by
      intro t outs hm
      simp at hm)
    rw [e, Option.map_some, ((h 0).2 hel).1.2]
    intro t ht
    simp at ht
    unfold hasConcrete Resolve.lookup
    rcases ht with rfl | rfl
    · cases st.made.lookup (0, [integer]) with
      | some r => rfl
      | none => rfl
    · cases hl : st.made.lookup (1, [integer]) with
      | some r => rfl
      | none =>
        rw [List.lookup_eq_none_iff] at hl
        have := hl _ hmade
        simp [integer, int] at this

/-! ### Variables of an expression, and of unit variants -/

mutual

theorem assign_subst (v : Nat) (ty : Ty) : ∀ t : Ty, assign v ty t = t.subst fun w => if w = v then ty else .var w
  | .never => rfl
  | .var w => by rw [assign, Ty.subst]
  | .node h args => by rw [assign, Ty.subst, assignArgs_subst v ty args]

theorem assignArgs_subst (v : Nat) (ty : Ty) : ∀ a : Args, assignArgs v ty a = a.subst fun w => if w = v then ty else .var w
  | .nil => rfl
  | .cons _ t rest => by rw [assignArgs, Args.subst, assign_subst v ty t, assignArgs_subst v ty rest]

end

mutual

theorem closed_assign {v : Nat} {ty : Ty} (h : Coherence.Closed ty) : ∀ t : Ty, Coherence.Closed (assign v ty t) ↔ ∀ w, t.contains w = true → w = v
  | .never => by simp [assign, Coherence.Closed, Ty.contains]
  | .var w => by
    rw [assign]
    split
    · rename_i hw
      subst hw
      simp [h, Ty.contains]
    · rename_i hw
      constructor
      · intro hc
        have := hc w
        simp [Ty.contains] at this
      · intro hc
        exact absurd (hc w (by simp [Ty.contains])) hw
  | .node _ args => by
    rw [assign]
    have := closedArgs_assign (v := v) h args
    simpa [Coherence.Closed, Ty.contains] using this

theorem closedArgs_assign {v : Nat} {ty : Ty} (h : Coherence.Closed ty) : ∀ a : Args,
    (∀ w, (assignArgs v ty a).contains w = false) ↔ ∀ w, a.contains w = true → w = v
  | .nil => by simp [assignArgs, Args.contains]
  | .cons _ t rest => by
    have h1 := closed_assign (v := v) h t
    have h2 := closedArgs_assign (v := v) h rest
    rw [assignArgs]
    simp only [Args.contains, Bool.or_eq_false_iff, Bool.or_eq_true]
    unfold Coherence.Closed at h1
    constructor
    · intro hc w hw
      exact hw.elim (h1.1 (fun w => (hc w).1) w) (h2.1 (fun w => (hc w).2) w)
    · intro hc w
      exact ⟨h1.2 (fun w hw => hc w (.inl hw)) w, h2.2 (fun w hw => hc w (.inr hw)) w⟩

end

theorem all_assign {v : Nat} {ty : Ty} (h : Coherence.Closed ty) (ins : List Ty) :
    (ins.map (assign v ty)).all (·.isConstant) = true ↔ ∀ u ∈ ins, ∀ w, u.contains w = true → w = v := by
  rw [Resolve.all_constant]
  constructor
  · intro hc u hu
    exact (closed_assign h u).1 (hc _ (List.mem_map.mpr ⟨u, hu, rfl⟩))
  · intro hc u hu
    obtain ⟨u', hu', rfl⟩ := List.mem_map.1 hu
    exact (closed_assign h u').2 (hc u' hu')

/-- The types with one variable replaced. -/
def put (v : Nat) (ty : Ty) (ins : List Ty) : List Ty := ins.map (·.subst fun w => if w = v then ty else .var w)

theorem map_assign (v : Nat) (ty : Ty) (ins : List Ty) : ins.map (assign v ty) = put v ty ins := by
  unfold put
  exact List.map_congr_left fun t _ => assign_subst v ty t

/-- A variable of the type of an expression becomes `int` exactly if some constraint is about it, all of these are traits, and those
about nothing else have an implementation for `int`. -/
theorem C79_expression_exact (solve : Nat → List Ty → Bool) (cs : List Con) (ty : Ty) (v : Nat) :
    v ∈ exprDefaults solve cs ty ↔ ty.contains v = true ∧ (∃ c ∈ cs, In v c) ∧ ∀ c ∈ cs, In v c → ∃ t ins outs, c = .trait t ins outs ∧
      ((∀ u ∈ ins, ∀ w, u.contains w = true → w = v) → solve t (put v integer ins) = true) := by
  unfold exprDefaults
  rw [List.mem_filter, mem_tyVars, Bool.and_eq_true, List.any_eq_true, List.all_eq_true]
  refine and_congr_right' (and_congr (by simp only [mentions_iff]) (forall_congr' fun c => forall_congr' fun _ => ?_))
  unfold allowsInt
  rw [Bool.or_eq_true, Bool.not_eq_true', ← Bool.not_eq_true, mentions_iff, ← imp_iff_not_or]
  refine imp_congr_right fun _ => ?_
  cases c with
  | trait t ins outs =>
    simp only [Bool.or_eq_true, Bool.not_eq_true', ← Bool.not_eq_true, all_assign (show Coherence.Closed integer from fun _ => rfl)]
    rw [← imp_iff_not_or, map_assign]
    constructor
    · intro h
      exact ⟨t, ins, outs, rfl, h⟩
    · rintro ⟨t', ins', outs', he, h⟩
      cases he
      exact h
  | variant _ _ _ => simp
  | layout _ => simp
  | other _ => simp

/-- A variable becomes unit exactly if an input of a trait or a payload has it, and all constraints about it are traits or payloads
with it among the inputs and not among the outputs, those without other variables with an implementation for unit. -/
theorem C79_unit_exact (solve : Nat → List Ty → Bool) (value : Nat) (cs : List Con) (v : Nat) :
    v ∈ unitDefaults solve value cs ↔
      (∃ c ∈ cs, (∃ t ins outs, c = .trait t ins outs ∧ ∃ u ∈ ins, u.contains v = true) ∨ ∃ p, c = .layout p ∧ p.contains v = true) ∧
      ∀ c ∈ cs, In v c → ∃ t ins outs, (c = .trait t ins outs ∨ ∃ p, c = .layout p ∧ t = value ∧ ins = [p] ∧ outs = []) ∧
        (∃ u ∈ ins, u.contains v = true) ∧ (∀ u ∈ outs, u.contains v = false) ∧
        ((∀ u ∈ ins, ∀ w, u.contains w = true → w = v) → solve t (put v unit ins) = true) := by
  have hin : ∀ t ins outs, allowsUnitIn solve v t ins outs = true ↔ (∃ u ∈ ins, u.contains v = true) ∧ (∀ u ∈ outs, u.contains v = false) ∧
      ((∀ u ∈ ins, ∀ w, u.contains w = true → w = v) → solve t (put v unit ins) = true) := by
    intro t ins outs
    unfold allowsUnitIn
    simp only [Bool.and_eq_true, Bool.or_eq_true, Bool.not_eq_true', List.any_eq_true, List.any_eq_false]
    rw [← Bool.not_eq_true (List.all _ _), all_assign (show Coherence.Closed unit from fun _ => rfl), ← imp_iff_not_or, map_assign, and_assoc]
    simp only [Bool.not_eq_true]
  unfold unitDefaults
  rw [List.mem_filter, List.all_eq_true]
  refine and_congr ?_ (forall_congr' fun c => forall_congr' fun _ => ?_)
  · unfold unitCandidates
    rw [List.mem_flatMap]
    refine exists_congr fun c => and_congr_right fun _ => ?_
    cases c with
    | trait t ins outs => simp [mem_tyVars]
    | layout p => simp [mem_tyVars]
    | variant _ _ _ => simp
    | other _ => simp
  · unfold allowsUnit
    rw [Bool.or_eq_true, Bool.not_eq_true', ← Bool.not_eq_true, mentions_iff, ← imp_iff_not_or]
    refine imp_congr_right fun _ => ?_
    cases c with
    | trait t ins outs =>
      simp only [hin]
      constructor
      · intro h
        exact ⟨t, ins, outs, .inl rfl, h⟩
      · rintro ⟨t', ins', outs', he | ⟨p, he, -⟩, h⟩
        · cases he
          exact h
        · cases he
    | layout p =>
      simp only [hin]
      constructor
      · intro h
        exact ⟨value, [p], [], .inr ⟨p, rfl, rfl, rfl, rfl⟩, h⟩
      · rintro ⟨t', ins', outs', he | ⟨p', he, rfl, rfl, rfl⟩, h⟩
        · cases he
        · cases he
          exact h
    | variant _ _ _ => simp
    | other _ => simp

/-- Whether the solver of C78 has an implementation. -/
def solved (env : Resolve.Env) (st : Resolve.State) (t : Nat) (ins : List Ty) : Bool := (Resolve.solveImpl env st t ins).any (·.2.isSome)

open Resolve in
/-- If the constraints about a variable are about nothing else, a default means that there are implementations. -/
theorem C79_defaults_shown_partial {S : Head → List (Option Nat) → Prop} {arity : Nat → Nat × Nat} {env : Resolve.Env} (hw : World S arity env)
    {st : State} (h : Reached S arity env st) {cs : List Con} {v t : Nat} {ins outs : List Ty} (hc : .trait t ins outs ∈ cs)
    (hv : ∃ u ∈ ins, u.contains v = true) (halone : ∀ u ∈ ins, ∀ w, u.contains w = true → w = v) :
    (∀ ty, v ∈ exprDefaults (solved env st) cs ty → Goal S arity t (put v integer ins) →
      ∃ d outs, Gives env.decls env.cur S false none d t (put v integer ins) outs) ∧
    ∀ value, v ∈ unitDefaults (solved env st) value cs → Goal S arity t (put v unit ins) →
      ∃ d outs, Gives env.decls env.cur S false none d t (put v unit ins) outs := by
  have key : ∀ ins, solved env st t ins = true → Goal S arity t ins → ∃ d outs, Gives env.decls env.cur S false none d t ins outs := by
    intro ins hs hg
    unfold solved at hs
    cases he : solveImpl env st t ins with
    | none => simp [he] at hs
    | some p =>
      obtain ⟨st', a⟩ := p
      cases a with
      | none => simp [he] at hs
      | some r => exact ⟨r.1, r.2, ((C78_sound_partial hw h hg).1 st' r.1 r.2 he).1⟩
  obtain ⟨u, hu, huv⟩ := hv
  have hin : In v (.trait t ins outs) := in_types.2 ⟨u, by simp [Con.types, hu], huv⟩
  constructor
  · intro ty hd
    obtain ⟨-, -, hd⟩ := (C79_expression_exact _ _ _ _).1 hd
    obtain ⟨t', ins', outs', he, hd⟩ := hd _ hc hin
    cases he
    exact key _ (hd halone)
  · intro value hd
    obtain ⟨-, hd⟩ := (C79_unit_exact _ _ _ _).1 hd
    obtain ⟨t', ins', outs', he | ⟨p, he, -⟩, -, -, hd⟩ := hd _ hc hin
    · cases he
      exact key _ (hd halone)
    · cases he

open Resolve in
/-- With `impl<T> Show for T where Num<T>` the variable of `Show<T>` becomes `int`. -/
example : 0 ∈ exprDefaults (solved showEnv .new) [.trait 1 [.var 0] []] (.var 0) ∧ Goal exSorts exArity 1 (put 0 integer [.var 0]) := by
  refine ⟨(C79_expression_exact _ _ _ _).2 ⟨rfl, ⟨_, List.mem_singleton.2 rfl, in_types.2 ⟨.var 0, by simp [Con.types], rfl⟩⟩, ?_⟩, rfl, ?_⟩
  · intro c hc _
    rw [List.mem_singleton] at hc
    refine ⟨1, [.var 0], [], hc, fun _ => ?_⟩
    obtain ⟨st, he⟩ := near_found (st := .new) showWorld .new ((show_near State.new.made).2.deeper _ (by simp [showEnv]))
    have he : solveImpl showEnv .new 1 (put 0 integer [.var 0]) = _ := he
    rw [solved, he]
    rfl
  · intro u hu
    simp only [put, List.map_cons, List.map_nil, Ty.subst, if_pos, List.mem_singleton] at hu
    subst hu
    exact int_plain'

/-- The element type of `concat([], [])`: the trait has an implementation for `int`. -/
example : exprDefaults (fun t ins => t == 1 && ins == [integer]) [.trait 1 [.var 5] []] (.node (.named 1) (.cons none (.var 5) .nil)) = [5] := by
  rfl

/-- Two variables of one constraint both become `int` or unit, although the trait has no implementation at all. -/
theorem C79_pair_violated : ∃ (cs : List Con) (ty : Ty), cs = [.trait 0 [.var 0, .var 1] []] ∧ exprDefaults (fun _ _ => false) cs ty = [0, 1] ∧
    unitDefaults (fun _ _ => false) 9 cs = [0, 1] :=
  ⟨_, .node .tuple (.cons none (.var 0) (.cons none (.var 1) .nil)), rfl, rfl, rfl⟩

/-- The output of the implementation does not matter: with `impl Item for <int |-> int>` and `impl Item for <() |-> int>`, the variable of
`Item<T |-> float>` becomes `int`, or unit. -/
theorem C79_output_violated : ∃ (solve : Nat → List Ty → Bool) (cs : List Con), cs = [.trait 0 [.var 0] [float]] ∧
    exprDefaults solve cs (.var 0) = [0] ∧ unitDefaults solve 9 cs = [0] ∧
    ∀ solve', exprDefaults solve' [.trait 0 [.var 0] [integer]] (.var 0) = exprDefaults solve' cs (.var 0) :=
  ⟨fun _ _ => true, _, rfl, rfl, rfl, fun _ => rfl⟩

/-! ### Variants -/

/-- No variable has the same variant twice. -/
def Distinct (cs : List Con) : Prop :=
  cs.Pairwise fun c c' => ∀ v tag p p', c = .variant tag (.var v) p → c' ≠ .variant tag (.var v) p'

theorem mem_subjects {cs : List Con} {v : Nat} : v ∈ subjects cs ↔ ∃ tag p, .variant tag (.var v) p ∈ cs := by
  unfold subjects
  rw [List.mem_filterMap]
  constructor
  · rintro ⟨c, hc, he⟩
    split at he
    · cases he
      exact ⟨_, _, hc⟩
    · cases he
  · rintro ⟨tag, p, h⟩
    exact ⟨_, h, rfl⟩

theorem spoiled_iff {cs : List Con} {v : Nat} (h : ∃ tag p, .variant tag (.var v) p ∈ cs) :
    spoiled cs v = true ↔ ∃ parts, .other parts ∈ cs ∧ ∃ u ∈ parts, u.contains v = true := by
  have hs : (subjects cs).contains v = true := by simpa using mem_subjects.2 h
  unfold spoiled
  rw [List.any_eq_true]
  constructor
  · rintro ⟨c, hc, he⟩
    split at he
    · simp at he
      exact absurd (by simpa using hs) he.2
    · exact ⟨_, hc, by simpa using he⟩
    · cases he
  · rintro ⟨parts, hc, hu⟩
    exact ⟨_, hc, by simpa using hu⟩

theorem variants_fold (all : List Con) : ∀ (cs seen : List Con) (acc : List ((Nat × Nat) × Ty)), Distinct (seen ++ cs) →
    (∀ v tag p, ((v, tag), p) ∈ acc ↔ spoiled all v = false ∧ .variant tag (.var v) p ∈ seen) →
    ∃ acc', cs.foldlM (addVariant all) acc = some acc' ∧
      ∀ v tag p, ((v, tag), p) ∈ acc' ↔ spoiled all v = false ∧ .variant tag (.var v) p ∈ seen ++ cs
  | [], seen, acc, _, h => ⟨acc, rfl, by simpa using h⟩
  | c :: cs, seen, acc, hd, h => by
    have hstep : ∃ acc', addVariant all acc c = some acc' ∧
        ∀ v tag p, ((v, tag), p) ∈ acc' ↔ spoiled all v = false ∧ .variant tag (.var v) p ∈ seen ++ [c] := by
      by_cases hc : ∃ tag v p, c = .variant tag (.var v) p
      · obtain ⟨tag, v, p, rfl⟩ := hc
        rw [addVariant]
        split
        · rename_i hs
          refine ⟨acc, rfl, fun v' tag' p' => ?_⟩
          rw [h]
          refine and_congr_right fun hs' => ?_
          simp only [List.mem_append, List.mem_singleton, Con.variant.injEq, Ty.var.injEq]
          refine ⟨.inl, fun hx => hx.elim id ?_⟩
          rintro ⟨-, rfl, -⟩
          rw [hs] at hs'
          cases hs'
        · rename_i hs
          rw [Bool.not_eq_true] at hs
          rw [if_neg]
          · refine ⟨_, rfl, fun v' tag' p' => ?_⟩
            rw [List.mem_cons, h]
            simp only [List.mem_append, List.mem_singleton, Con.variant.injEq, Ty.var.injEq, Prod.mk.injEq]
            constructor
            · rintro (⟨⟨rfl, rfl⟩, rfl⟩ | ⟨h1, h2⟩)
              · exact ⟨hs, .inr ⟨rfl, rfl, rfl⟩⟩
              · exact ⟨h1, .inl h2⟩
            · rintro ⟨h1, h2 | ⟨rfl, rfl, rfl⟩⟩
              · exact .inr ⟨h1, h2⟩
              · exact .inl ⟨⟨rfl, rfl⟩, rfl⟩
          · intro hsome
            cases hl : acc.lookup (v, tag) with
            | none => simp [hl] at hsome
            | some p' =>
              obtain ⟨l₁, l₂, he, -⟩ := List.lookup_eq_some_iff.1 hl
              have hm : ((v, tag), p') ∈ acc := by rw [he]; simp
              exact (List.pairwise_append.1 hd).2.2 _ ((h v tag p').1 hm).2 _ (by simp) v tag p' p rfl rfl
      · refine ⟨acc, ?_, fun v tag p => ?_⟩
        · unfold addVariant
          split
          · exact absurd ⟨_, _, _, rfl⟩ hc
          · rfl
        · rw [h]
          refine and_congr_right fun _ => ?_
          rw [List.mem_append, List.mem_singleton]
          exact ⟨.inl, fun hx => hx.elim id fun hx => absurd ⟨_, _, _, hx.symm⟩ hc⟩
    obtain ⟨acc', e, h'⟩ := hstep
    obtain ⟨acc'', e', h''⟩ := variants_fold all cs (seen ++ [c]) acc' (by simpa using hd) h'
    refine ⟨acc'', ?_, by simpa using h''⟩
    rw [List.foldlM_cons, e]
    exact e'

/-- A variable becomes a variant type unless an access to a part is about it, and that type has exactly the variants which are
asked for.  That a payload of another variant has the variable does not matter. -/
theorem C79_variants_exact {cs : List Con} (hd : Distinct cs) : ∃ r, variantDefaults cs = some r ∧ ∀ v,
    (r v = none ↔ (∀ tag p, .variant tag (.var v) p ∉ cs) ∨ ∃ parts, .other parts ∈ cs ∧ ∃ u ∈ parts, u.contains v = true) ∧
    ∀ l, r v = some l → ∀ tag p, (tag, p) ∈ l ↔ .variant tag (.var v) p ∈ cs := by
  obtain ⟨acc, e, h⟩ := variants_fold cs cs [] [] (by simpa using hd) (by simp)
  rw [List.nil_append] at h
  refine ⟨_, by rw [variantDefaults, e]; rfl, fun v => ?_⟩
  have hmem : ∀ tag p, (tag, p) ∈ acc.filterMap (fun e => if e.1.1 = v then some (e.1.2, e.2) else none) ↔
      spoiled cs v = false ∧ .variant tag (.var v) p ∈ cs := by
    intro tag p
    rw [List.mem_filterMap, ← h]
    constructor
    · rintro ⟨⟨⟨w, tag'⟩, p'⟩, hm, he⟩
      simp only at he
      split at he
      · rename_i hw
        subst hw
        cases he
        exact hm
      · cases he
    · intro hm
      exact ⟨_, hm, by simp⟩
  simp only
  split
  · rename_i hnil
    rw [hnil] at hmem
    refine ⟨⟨fun _ => ?_, fun _ => rfl⟩, nofun⟩
    by_cases hx : ∃ tag p, .variant tag (.var v) p ∈ cs
    · right
      obtain ⟨tag, p, hm⟩ := hx
      refine (spoiled_iff ⟨tag, p, hm⟩).1 ?_
      by_contra hs
      exact absurd ((hmem tag p).2 ⟨by simpa using hs, hm⟩) (by simp)
    · left
      intro tag p hm
      exact hx ⟨tag, p, hm⟩
  · rename_i l hne
    generalize hl : acc.filterMap (fun e => if e.1.1 = v then some (e.1.2, e.2) else none) = l at hmem
    have hns : spoiled cs v = false ∧ ∃ tag p, .variant tag (.var v) p ∈ cs := by
      cases l with
      | nil => exact absurd hl hne
      | cons q l =>
        obtain ⟨h1, h2⟩ := (hmem q.1 q.2).1 (by simp)
        exact ⟨h1, _, _, h2⟩
    refine ⟨⟨nofun, ?_⟩, fun l' hl' tag p => ?_⟩
    · rintro (hno | hot)
      · obtain ⟨tag, p, hm⟩ := hns.2
        exact absurd hm (hno tag p)
      · rw [← spoiled_iff hns.2, hns.1] at hot
        cases hot
    · cases hl'
      rw [hmem]
      exact ⟨And.right, fun hm => ⟨hns.1, hm⟩⟩

/-- Two variants of one variable, one with a payload which has the variable itself. -/
example : Distinct [.variant 0 (.var 7) integer, .variant 1 (.var 7) (.var 7), .layout (.var 7)] ∧
    (variantDefaults [.variant 0 (.var 7) integer, .variant 1 (.var 7) (.var 7), .layout (.var 7)]).map (· 7) =
      some (some [(1, .var 7), (0, integer)]) := by
  refine ⟨?_, rfl⟩
  unfold Distinct
  rw [List.pairwise_cons, List.pairwise_cons]
  refine ⟨fun c hc v tag p p' h h' => ?_, fun c hc v tag p p' h h' => ?_, List.pairwise_singleton _ _⟩
  · cases h
    subst h'
    simp at hc
  · cases h
    subst h'
    simp at hc

end Ferlium.Default
