import Verif.Proofs.Import

/-!
C80: `use` declarations are accepted exactly if what they name exists, is public and does not clash, whatever their order and
grouping; names mean the item of the current module, else the one imported by name, else the only one imported by a wildcard;
imports and additions to other modules never silently change what a name means.
-/
namespace Ferlium.Import

/-! ### What names mean, independently of the lookup -/

/-- The current module defines the name as an item of the kind. -/
def Own (cur : Mod) (k x i : Nat) : Prop := ∃ d, (x, d) ∈ cur.defs ∧ d.kind = k ∧ d.item = i

/-- The module under a path offers the name to another module. -/
def Offers (ms : Modules) (fromId k x : Nat) (p : Path) (m : Mod) (i : Nat) : Prop :=
  At ms p m ∧ ∃ d, (x, d) ∈ m.defs ∧ d.kind = k ∧ d.item = i ∧ (m.id = fromId ∨ d.pub = true)

/-- The meaning of a name: nothing before the own module, then explicit imports, then the only wildcard import. -/
inductive Means (ms : Modules) (cur : Mod) (u : Uses) (k x : Nat) : Option Nat → Nat → Prop
  | own {i} : Own cur k x i → Means ms cur u k x none i
  | explicit {p m i} : (∀ j, ¬ Own cur k x j) → (x, p) ∈ u.explicits → Offers ms cur.id k x p m i →
      Means ms cur u k x (some m.id) i
  | wildcard {a b p m i} : (∀ j, ¬ Own cur k x j) → (∀ q n j, (x, q) ∈ u.explicits → ¬ Offers ms cur.id k x q n j) →
      u.wildcards = a ++ p :: b → Offers ms cur.id k x p m i →
      (∀ q ∈ a ++ b, ∀ n j, ¬ Offers ms cur.id k x q n j) → Means ms cur u k x (some m.id) i

/-- The situation of a module: the registered modules are sane, it defines a name once, and imports a name once. -/
structure Scene (ms : Modules) (cur : Mod) (u : Uses) : Prop where
  sane : Sane ms
  own : (cur.defs.map (·.1)).Nodup
  once : (u.explicits.map (·.1)).Nodup

theorem getter_own {k x f : Nat} {m : Mod} (hn : (m.defs.map (·.1)).Nodup) {i : Nat} :
    getter k x f m false = some i ↔ Own m k x i := by
  unfold getter Own
  simp only [Bool.false_and, Bool.false_eq_true, if_false]
  constructor
  · intro h
    split at h
    · rename_i d hd
      split at h
      · exact ⟨d, (get_iff hn).mp hd, by assumption, by simpa using h⟩
      · simp at h
    · simp at h
  · rintro ⟨d, hd, hk, rfl⟩
    rw [(get_iff hn).mpr hd]
    simp [hk]

theorem offered_iff {ms : Modules} (hs : Sane ms) {k x f : Nat} {p : Path} {r : Nat × Nat} :
    offered ms k x f p = some r ↔ ∃ m, Offers ms f k x p m r.2 ∧ m.id = r.1 := by
  obtain ⟨a, i⟩ := r
  unfold offered Offers
  constructor
  · intro h
    split at h
    · rename_i m hm
      have ha := (at_iff hs).mp hm
      have hn := hs.names p m ha
      simp only [Option.map_eq_some_iff, Prod.mk.injEq] at h
      obtain ⟨j, hg, rfl, rfl⟩ := h
      refine ⟨m, ⟨ha, ?_⟩, rfl⟩
      unfold getter accessible at hg
      cases hd : m.get x with
      | none => rw [hd] at hg; simp at hg
      | some d =>
        rw [hd] at hg
        simp only [Bool.true_and, Bool.not_eq_true', Bool.or_eq_false_iff] at hg
        split at hg
        · simp at hg
        · rename_i hacc
          split at hg
          · refine ⟨d, (get_iff hn).mp hd, by assumption, by simpa using hg, ?_⟩
            by_contra hc
            rw [not_or] at hc
            exact hacc ⟨by simpa using hc.1, by simpa using hc.2⟩
          · simp at hg
    · simp at h
  · rintro ⟨m, ⟨ha, d, hd, hk, hi, hv⟩, rfl⟩
    have hn := hs.names p m ha
    rw [(at_iff hs).mpr ha]
    simp only [Option.map_eq_some_iff, Prod.mk.injEq, true_and]
    refine ⟨i, ?_, rfl⟩
    unfold getter accessible
    rw [(get_iff hn).mpr hd]
    simp only at hi
    simp [hk, hi]
    rcases hv with hv | hv <;> simp [hv]

theorem offered_none {ms : Modules} (hs : Sane ms) {k x f : Nat} {p : Path} :
    offered ms k x f p = none ↔ ∀ m i, ¬ Offers ms f k x p m i := by
  constructor
  · intro h m i ho
    have := (offered_iff hs (r := (m.id, i))).mpr ⟨m, ho, rfl⟩
    rw [h] at this
    cases this
  · intro h
    cases hr : offered ms k x f p with
    | none => rfl
    | some r =>
      obtain ⟨m, ho, -⟩ := (offered_iff hs).mp hr
      exact absurd ho (h m r.2)

theorem explicit_iff {u : Uses} (hn : (u.explicits.map (·.1)).Nodup) {x : Nat} {p : Path} :
    u.explicit x = some p ↔ (x, p) ∈ u.explicits := find_key hn

/-- The offers of the explicit import of a name. -/
theorem bind_iff {ms : Modules} {cur : Mod} {u : Uses} (hs : Scene ms cur u) {k x : Nat} {r : Nat × Nat} :
    (u.explicit x).bind (offered ms k x cur.id) = some r ↔
      ∃ p m, (x, p) ∈ u.explicits ∧ Offers ms cur.id k x p m r.2 ∧ m.id = r.1 := by
  rw [Option.bind_eq_some_iff]
  constructor
  · rintro ⟨p, hp, ho⟩
    obtain ⟨m, ho, hm⟩ := (offered_iff hs.sane).mp ho
    exact ⟨p, m, (explicit_iff hs.once).mp hp, ho, hm⟩
  · rintro ⟨p, m, hp, ho, hm⟩
    exact ⟨p, (explicit_iff hs.once).mpr hp, (offered_iff hs.sane).mpr ⟨m, ho, hm⟩⟩

theorem bind_none {ms : Modules} {cur : Mod} {u : Uses} (hs : Scene ms cur u) {k x : Nat} :
    (u.explicit x).bind (offered ms k x cur.id) = none ↔
      ∀ q n j, (x, q) ∈ u.explicits → ¬ Offers ms cur.id k x q n j := by
  constructor
  · intro h q n j hq ho
    have := (bind_iff hs (r := (n.id, j))).mpr ⟨q, n, hq, ho, rfl⟩
    rw [h] at this
    cases this
  · intro h
    cases hr : (u.explicit x).bind (offered ms k x cur.id) with
    | none => rfl
    | some r =>
      obtain ⟨p, m, hp, ho, -⟩ := (bind_iff hs).mp hr
      exact absurd ho (h p m r.2 hp)

theorem filterMap_one {α β : Type} {f : α → Option β} {l : List α} {r : β} :
    l.filterMap f = [r] ↔ ∃ a p b, l = a ++ p :: b ∧ f p = some r ∧ ∀ q ∈ a ++ b, f q = none := by
  induction l with
  | nil => simp
  | cons e l ih =>
    cases he : f e with
    | none =>
      rw [List.filterMap_cons_none he, ih]
      constructor
      · rintro ⟨a, p, b, rfl, hp, hq⟩
        refine ⟨e :: a, p, b, rfl, hp, ?_⟩
        intro q h
        rcases List.mem_cons.mp h with rfl | h
        · exact he
        · exact hq q h
      · rintro ⟨a, p, b, h, hp, hq⟩
        cases a with
        | nil =>
          simp only [List.nil_append, List.cons.injEq] at h
          rw [h.1, hp] at he
          cases he
        | cons c a =>
          simp only [List.cons_append, List.cons.injEq] at h
          exact ⟨a, p, b, h.2, hp, fun q hq' => hq q (List.mem_cons_of_mem _ hq')⟩
    | some s =>
      rw [List.filterMap_cons_some he]
      constructor
      · intro h
        simp only [List.cons.injEq, List.filterMap_eq_nil_iff] at h
        obtain ⟨rfl, h⟩ := h
        exact ⟨[], e, l, rfl, he, by simpa using h⟩
      · rintro ⟨a, p, b, h, hp, hq⟩
        cases a with
        | nil =>
          simp only [List.nil_append, List.cons.injEq] at h
          obtain ⟨rfl, rfl⟩ := h
          rw [he] at hp
          cases hp
          simp only [List.cons.injEq, List.filterMap_eq_nil_iff, true_and]
          exact fun q h => hq q (by simpa using h)
        | cons c a =>
          simp only [List.cons_append, List.cons.injEq] at h
          rw [h.1, hq c (by simp)] at he
          cases he

theorem filterMap_many {α β : Type} {f : α → Option β} {l : List α} {r s : β} {t : List β} (h : l.filterMap f = r :: s :: t) :
    ∃ a p b q c, l = a ++ p :: (b ++ q :: c) ∧ f p = some r ∧ f q = some s := by
  obtain ⟨a, p, l1, rfl, -, hp, h1⟩ := List.filterMap_eq_cons_iff.mp h
  obtain ⟨b, q, c, rfl, -, hq, -⟩ := List.filterMap_eq_cons_iff.mp h1
  exact ⟨a, p, b, q, c, rfl, hp, hq⟩

/-! ### Imports -/

/-- **C80.** Imports are accepted exactly if every module and every name they mention exists and is public, no name is imported
twice and none is defined here; and then precisely these imports are added. -/
theorem C80_imports_exact {ms : Modules} (hs : Sane ms) {locals : List Nat} {trees : List UseTree} (hw : AllWritten trees)
    {u u' : Uses} :
    resolveImports ms locals trees u = .ok u' ↔
      Valid ms locals u.explicits (plainAll [] trees)
      ∧ u' = ⟨(explicitOf (plainAll [] trees)).reverse ++ u.explicits, u.wildcards ++ wildcardOf (plainAll [] trees)⟩ := by
  unfold resolveImports
  generalize hi : plainAll [] trees = imps
  have hold : ∀ seen, prefill locals u.explicits [] = .ok seen ↔ _ := fun seen => prefill_ok List.nodup_nil
  cases hp : prefill locals u.explicits [] with
  | error e =>
    simp only [reduceCtorEq, false_iff]
    rintro ⟨⟨-, -, h1, h2⟩, -⟩
    have : prefill locals u.explicits [] = .ok ((u.explicits.map (·.1)).reverse ++ []) := by
      rw [hold]
      refine ⟨?_, ?_, rfl⟩
      · rw [List.map_append] at h1
        simpa using h1.of_append_left
      · exact fun e he => h2 e.1 e.2 (List.mem_append_left _ he)
    rw [this] at hp
    cases hp
  | ok seen =>
    obtain ⟨h1, h2, rfl⟩ := (hold seen).mp hp
    simp only [List.append_nil] at h1 ⊢
    rw [resolveAll_run ms locals [] trees hw, hi]
    have hrev : ((u.explicits.map (·.1)).reverse).Nodup := List.nodup_reverse.mpr h1
    have hcomm : ((explicitOf imps).map (·.1) ++ (u.explicits.map (·.1)).reverse).Nodup
        ↔ ((u.explicits ++ explicitOf imps).map (·.1)).Nodup := by
      rw [List.map_append]
      exact (((List.reverse_perm _).append_left _).trans List.perm_append_comm).nodup_iff
    constructor
    · intro h
      cases hr : run ms locals imps ((u.explicits.map (·.1)).reverse, u) with
      | error e => rw [hr] at h; cases h
      | ok st =>
        obtain ⟨seen', v⟩ := st
        rw [hr] at h
        cases h
        obtain ⟨⟨a, b, c, d⟩, -, rfl⟩ := (run_ok hs hrev).mp hr
        refine ⟨⟨a, b, hcomm.mp c, ?_⟩, rfl⟩
        intro x p hx
        rcases List.mem_append.mp hx with hx | hx
        · exact h2 _ hx
        · exact d _ hx
    · rintro ⟨⟨a, b, c, d⟩, rfl⟩
      rw [(run_ok hs hrev).mpr ⟨⟨a, b, hcomm.mpr c, fun e he => d e.1 e.2 (List.mem_append_right _ he)⟩, rfl, rfl⟩]
      rfl

theorem step_panic {ms : Modules} {locals : List Nat} {i : Plain} {st : List Nat × Uses}
    (h : step ms locals i st = .error .panic) : i = .all [] ∧ ∀ e, ([], e) ∉ ms := by
  obtain ⟨seen, u⟩ := st
  cases i with
  | all p =>
    simp only [step] at h
    split at h
    · cases h
    · rename_i hm
      split at h
      · rename_i hp
        subst hp
        refine ⟨rfl, fun e he => hm (moduleExists_iff.mpr ⟨e, he⟩)⟩
      · cases h
  | one p x =>
    simp only [step, register] at h
    split at h
    · split at h
      · split at h
        · rename_i hr
          split at hr
          · cases hr; cases h
          · split at hr
            · cases hr; cases h
            · cases hr
        · cases h
      · cases h
    · cases h

theorem run_panic {ms : Modules} {locals : List Nat} {imps : List Plain} {st : List Nat × Uses}
    (h : run ms locals imps st = .error .panic) : [] ∈ wildcardOf imps ∧ ∀ e, ([], e) ∉ ms := by
  induction imps generalizing st with
  | nil => cases h
  | cons i imps ih =>
    simp only [run] at h
    split at h
    · rename_i e he
      cases h
      obtain ⟨rfl, hm⟩ := step_panic he
      exact ⟨by simp [wildcardOf], hm⟩
    · obtain ⟨h1, h2⟩ := ih h
      refine ⟨?_, h2⟩
      cases i with
      | all p => exact List.mem_cons_of_mem _ h1
      | one p x => exact h1

theorem prefill_panic {locals : List Nat} {l : List (Nat × Path)} {seen : List Nat} :
    prefill locals l seen ≠ .error .panic := by
  induction l generalizing seen with
  | nil => simp [prefill]
  | cons e l ih =>
    simp only [prefill, register]
    split
    · rename_i hr
      split at hr
      · cases hr; simp
      · split at hr
        · cases hr; simp
        · cases hr
    · exact ih

/-- **C80.** Import resolution only panics at a wildcard without a path. -/
theorem C80_panic_partial {ms : Modules} {locals : List Nat} {trees : List UseTree} (hw : AllWritten trees) {u : Uses}
    (h : resolveImports ms locals trees u = .error .panic) : [] ∈ wildcardOf (plainAll [] trees) := by
  unfold resolveImports at h
  split at h
  · rename_i e he
    cases h
    exact absurd he prefill_panic
  · rw [resolveAll_run ms locals [] trees hw] at h
    cases hr : run ms locals (plainAll [] trees) (by assumption, u) with
    | error e =>
      rw [hr] at h
      cases h
      exact (run_panic hr).1
    | ok st => rw [hr] at h; cases h

/-- **C80, violated.** `use *;` panics in every program, and so does `use { * };`. -/
theorem C80_panic_violated {ms : Modules} (hm : ∀ e, ([], e) ∉ ms) (locals : List Nat) :
    resolveImports ms locals [.glob none] Uses.withStd = .error .panic
    ∧ resolveImports ms locals [.group none [.glob none]] Uses.withStd = .error .panic := by
  have he : moduleExists ms [] = false := by
    rw [← Bool.not_eq_true, moduleExists_iff]
    simpa using hm
  constructor <;>
    simp [resolveImports, prefill, Uses.withStd, resolveAll, resolveOne, he, Except.map]

/-! ### Lookup -/

/-- Two wildcard imports at different places offer the name. -/
def Twice (ms : Modules) (cur : Mod) (u : Uses) (k x : Nat) : Prop :=
  ∃ a p b q c m i n j, u.wildcards = a ++ p :: (b ++ q :: c) ∧ Offers ms cur.id k x p m i ∧ Offers ms cur.id k x q n j

/-- **C80.** A lookup finds exactly what the name means; it fails exactly if two wildcard imports offer a name which is neither
defined here nor imported by name; and it finds nothing exactly if nothing offers the name. -/
theorem C80_lookup_exact {ms : Modules} {cur : Mod} {u : Uses} (hs : Scene ms cur u) (k x : Nat) :
    (∀ a i, findMember ms cur u k x = .one a i ↔ Means ms cur u k x a i)
    ∧ (findMember ms cur u k x = .ambiguous ↔
        (∀ i, ¬ Own cur k x i) ∧ (∀ q n j, (x, q) ∈ u.explicits → ¬ Offers ms cur.id k x q n j) ∧ Twice ms cur u k x)
    ∧ (findMember ms cur u k x = .nothing ↔
        (∀ i, ¬ Own cur k x i) ∧ (∀ q n j, (x, q) ∈ u.explicits → ¬ Offers ms cur.id k x q n j)
          ∧ ∀ q ∈ u.wildcards, ∀ n j, ¬ Offers ms cur.id k x q n j) := by
  unfold findMember
  cases hg : getter k x cur.id cur false with
  | some i =>
    have ho := (getter_own hs.own).mp hg
    refine ⟨fun a j => ?_, ?_, ?_⟩
    · simp only [Found.one.injEq]
      constructor
      · rintro ⟨rfl, rfl⟩
        exact .own ho
      · intro h
        cases h with
        | own h =>
          have := (getter_own hs.own (f := cur.id)).mpr h
          rw [hg] at this
          exact ⟨rfl, by simpa using this⟩
        | explicit h => exact absurd ho (h i)
        | wildcard h => exact absurd ho (h i)
    · simp only [reduceCtorEq, false_iff]
      exact fun h => h.1 i ho
    · simp only [reduceCtorEq, false_iff]
      exact fun h => h.1 i ho
  | none =>
    have hno : ∀ i, ¬ Own cur k x i := by
      intro i h
      have := (getter_own hs.own (f := cur.id)).mpr h
      rw [hg] at this
      cases this
    cases hb : (u.explicit x).bind (offered ms k x cur.id) with
    | some r =>
      obtain ⟨m0, i0⟩ := r
      obtain ⟨p, m, hp, ho, hm⟩ := (bind_iff hs).mp hb
      refine ⟨fun a j => ?_, ?_, ?_⟩
      · simp only [Found.one.injEq]
        constructor
        · rintro ⟨rfl, rfl⟩
          simp only at hm ho
          rw [← hm]
          exact .explicit hno hp ho
        · intro h
          cases h with
          | own h => exact absurd h (hno _)
          | explicit h hq ho' =>
            have := (bind_iff hs (r := (_, _))).mpr ⟨_, _, hq, ho', rfl⟩
            rw [hb] at this
            simp only [Option.some.injEq, Prod.mk.injEq] at this
            exact ⟨by rw [this.1], this.2⟩
          | wildcard h h' => exact absurd ho (h' _ _ _ hp)
      · simp only [reduceCtorEq, false_iff]
        exact fun h => h.2.1 _ _ _ hp ho
      · simp only [reduceCtorEq, false_iff]
        exact fun h => h.2.1 _ _ _ hp ho
    | none =>
      have hne := (bind_none hs).mp hb
      have hmean : ∀ a j, Means ms cur u k x a j ↔ ∃ r, u.wildcards.filterMap (offered ms k x cur.id) = [r]
          ∧ a = some r.1 ∧ j = r.2 := by
        intro a j
        constructor
        · intro h
          cases h with
          | own h => exact absurd h (hno _)
          | explicit h hq ho' => exact absurd ho' (hne _ _ _ hq)
          | wildcard _ _ hw ho hq =>
            refine ⟨(_, _), filterMap_one.mpr ⟨_, _, _, hw, (offered_iff hs.sane).mpr ⟨_, ho, rfl⟩, ?_⟩, rfl, rfl⟩
            exact fun q h => (offered_none hs.sane).mpr (hq q h)
        · rintro ⟨r, hr, rfl, rfl⟩
          obtain ⟨a, p, b, hw, hp, hq⟩ := filterMap_one.mp hr
          obtain ⟨m, ho, hm⟩ := (offered_iff hs.sane).mp hp
          rw [← hm]
          exact .wildcard hno hne hw ho (fun q h => (offered_none hs.sane).mp (hq q h))
      have htw : Twice ms cur u k x ↔ ∃ r s t, u.wildcards.filterMap (offered ms k x cur.id) = r :: s :: t := by
        constructor
        · rintro ⟨a, p, b, q, c, m, i, n, j, hw, hp, hq⟩
          rw [hw]
          simp only [List.filterMap_append, List.filterMap_cons,
            (offered_iff hs.sane (r := (m.id, i))).mpr ⟨m, hp, rfl⟩, (offered_iff hs.sane (r := (n.id, j))).mpr ⟨n, hq, rfl⟩]
          generalize a.filterMap (offered ms k x cur.id) = a'
          generalize b.filterMap (offered ms k x cur.id) = b'
          cases a' with
          | nil =>
            cases b' with
            | nil => exact ⟨_, _, _, rfl⟩
            | cons b0 b' => exact ⟨_, _, _, rfl⟩
          | cons a0 a' =>
            cases a' with
            | nil => exact ⟨_, _, _, rfl⟩
            | cons a1 a' => exact ⟨_, _, _, rfl⟩
        · rintro ⟨r, s, t, h⟩
          obtain ⟨a, p, b, q, c, hw, hp, hq⟩ := filterMap_many h
          obtain ⟨m, ho, hm⟩ := (offered_iff hs.sane).mp hp
          obtain ⟨n, ho', hn⟩ := (offered_iff hs.sane).mp hq
          exact ⟨a, p, b, q, c, m, _, n, _, hw, ho, ho'⟩
      have hnil : (∀ q ∈ u.wildcards, ∀ n j, ¬ Offers ms cur.id k x q n j)
          ↔ u.wildcards.filterMap (offered ms k x cur.id) = [] := by
        rw [List.filterMap_eq_nil_iff]
        exact ⟨fun h q hq => (offered_none hs.sane).mpr (h q hq), fun h q hq => (offered_none hs.sane).mp (h q hq)⟩
      simp only [hmean, htw, hnil]
      refine ⟨fun a j => ?_, ?_, ?_⟩
      · rcases hl : u.wildcards.filterMap (offered ms k x cur.id) with _ | ⟨⟨r1, r2⟩, _ | ⟨s, t⟩⟩
        · simp
        · simp [eq_comm]
        · simp
      · rcases hl : u.wildcards.filterMap (offered ms k x cur.id) with _ | ⟨⟨r1, r2⟩, _ | ⟨s, t⟩⟩
        · simp
        · simp
        · simp only [true_iff]
          exact ⟨hno, hne, _, _, _, rfl⟩
      · rcases hl : u.wildcards.filterMap (offered ms k x cur.id) with _ | ⟨⟨r1, r2⟩, _ | ⟨s, t⟩⟩
        · simp only [and_true, true_iff]
          exact ⟨hno, hne⟩
        · simp
        · simp

theorem meaning_unique {ms : Modules} {cur : Mod} {u : Uses} (hs : Scene ms cur u) {k x : Nat} {a b : Option Nat} {i j : Nat}
    (h1 : Means ms cur u k x a i) (h2 : Means ms cur u k x b j) : a = b ∧ i = j := by
  rw [← (C80_lookup_exact hs k x).1] at h1 h2
  rw [h1] at h2
  simpa using h2

/-! ### Order and grouping -/

theorem explicitOf_append (a b : List Plain) : explicitOf (a ++ b) = explicitOf a ++ explicitOf b := by
  induction a with
  | nil => rfl
  | cons i a ih => cases i <;> simp [explicitOf, ih]

theorem explicitOf_perm {a b : List Plain} (h : a.Perm b) : (explicitOf a).Perm (explicitOf b) := by
  induction h with
  | nil => exact .nil
  | cons i _ ih => cases i <;> simp [explicitOf, ih]
  | swap i j l =>
    cases i <;> cases j <;> simp [explicitOf, List.Perm.swap]
  | trans _ _ h1 h2 => exact h1.trans h2

theorem wildcardOf_perm {a b : List Plain} (h : a.Perm b) : (wildcardOf a).Perm (wildcardOf b) := by
  induction h with
  | nil => exact .nil
  | cons i _ ih => cases i <;> simp [wildcardOf, ih]
  | swap i j l =>
    cases i <;> cases j <;> simp [wildcardOf, List.Perm.swap]
  | trans _ _ h1 h2 => exact h1.trans h2

theorem explicit_perm {l l' : List (Nat × Path)} (hn : (l.map (·.1)).Nodup) (h : l.Perm l') (w w' : List Path) (x : Nat) :
    Uses.explicit ⟨l, w⟩ x = Uses.explicit ⟨l', w'⟩ x := by
  have hn' : (l'.map (·.1)).Nodup := (h.map _).nodup_iff.mp hn
  apply Option.ext
  intro p
  show Uses.explicit ⟨l, w⟩ x = some p ↔ Uses.explicit ⟨l', w'⟩ x = some p
  rw [explicit_iff (u := ⟨l, w⟩) hn, explicit_iff (u := ⟨l', w'⟩) hn']
  exact h.mem_iff

theorem findMember_perm {ms : Modules} {cur : Mod} {l l' : List (Nat × Path)} {w w' : List Path}
    (hn : (l.map (·.1)).Nodup) (hl : l.Perm l') (hw : w.Perm w') (k x : Nat) :
    findMember ms cur ⟨l, w⟩ k x = findMember ms cur ⟨l', w'⟩ k x := by
  unfold findMember
  rw [explicit_perm hn hl w w' x]
  have hp := hw.filterMap (offered ms k x cur.id)
  cases getter k x cur.id cur false with
  | some i => rfl
  | none =>
    cases (Uses.explicit ⟨l', w'⟩ x).bind (offered ms k x cur.id) with
    | some r => rfl
    | none =>
      simp only
      revert hp
      generalize w.filterMap (offered ms k x cur.id) = a
      generalize w'.filterMap (offered ms k x cur.id) = b
      intro hp
      have hlen := hp.length_eq
      rcases a with _ | ⟨r, _ | ⟨s, t⟩⟩
      · rw [hp.nil_eq]
      · rw [List.singleton_perm.mp hp]
      · rcases b with _ | ⟨r', _ | ⟨s', t'⟩⟩
        · simp at hlen
        · simp at hlen
        · rfl

/-- **C80.** Neither the order nor the grouping of the `use` declarations matters: whether they are accepted, and what every
name means. -/
theorem C80_order {ms : Modules} (hs : Sane ms) {locals : List Nat} {trees trees' : List UseTree} (hw : AllWritten trees)
    (hw' : AllWritten trees') (h : (plainAll [] trees).Perm (plainAll [] trees')) (u : Uses) :
    ((∃ v, resolveImports ms locals trees u = .ok v) ↔ ∃ v, resolveImports ms locals trees' u = .ok v)
    ∧ ∀ v v', resolveImports ms locals trees u = .ok v → resolveImports ms locals trees' u = .ok v' →
      ∀ cur k x, findMember ms cur v k x = findMember ms cur v' k x := by
  have hval : ∀ a b : List Plain, a.Perm b → Valid ms locals u.explicits a → Valid ms locals u.explicits b := by
    intro a b hab hv
    have he := explicitOf_perm hab
    refine ⟨fun p hp => hv.modules p ((wildcardOf_perm hab).mem_iff.mpr hp), fun x p hx => hv.symbols x p (he.mem_iff.mpr hx),
      ((he.append_left _).map _).nodup_iff.mp hv.once, fun x p hx => hv.fresh x p ((he.append_left _).mem_iff.mpr hx)⟩
  constructor
  · constructor
    · rintro ⟨v, hv⟩
      exact ⟨_, (C80_imports_exact hs hw').mpr ⟨hval _ _ h ((C80_imports_exact hs hw).mp hv).1, rfl⟩⟩
    · rintro ⟨v, hv⟩
      exact ⟨_, (C80_imports_exact hs hw).mpr ⟨hval _ _ h.symm ((C80_imports_exact hs hw').mp hv).1, rfl⟩⟩
  · intro v v' hv hv' cur k x
    obtain ⟨ha, rfl⟩ := (C80_imports_exact hs hw).mp hv
    obtain ⟨-, rfl⟩ := (C80_imports_exact hs hw').mp hv'
    have he := explicitOf_perm h
    refine findMember_perm ?_ ?_ ?_ k x
    · refine (List.Perm.nodup_iff ?_).mp ha.once
      exact ((List.perm_append_comm.trans ((List.reverse_perm _).symm.append_right _)).map _)
    · exact ((List.reverse_perm _).trans (he.trans (List.reverse_perm _).symm)).append_right _
    · exact (wildcardOf_perm h).append_left _

/-- Accepted imports make a scene, so the theorems on lookup apply. -/
theorem C80_scene {ms : Modules} (hs : Sane ms) {locals : List Nat} {trees : List UseTree} (hw : AllWritten trees)
    {u v : Uses} (h : resolveImports ms locals trees u = .ok v) {cur : Mod} (hc : (cur.defs.map (·.1)).Nodup) :
    Scene ms cur v := by
  obtain ⟨ha, rfl⟩ := (C80_imports_exact hs hw).mp h
  refine ⟨hs, hc, ?_⟩
  refine (List.Perm.nodup_iff ?_).mp ha.once
  exact ((List.perm_append_comm.trans ((List.reverse_perm _).symm.append_right _)).map _)

/-- **C80.** An accepted import by name means what it says: the name, looked up as what it is there, is the item of that module,
whatever is imported besides. -/
theorem C80_import_wins {ms : Modules} (hs : Sane ms) {locals : List Nat} {trees : List UseTree} (hw : AllWritten trees)
    {u v : Uses} (h : resolveImports ms locals trees u = .ok v) {cur : Mod} (hc : (cur.defs.map (·.1)).Nodup)
    (hl : ∀ x ∈ cur.defs.map (·.1), x ∈ locals) {x : Nat} {p : Path} (hx : (x, p) ∈ explicitOf (plainAll [] trees)) :
    ∃ m d, At ms p m ∧ (x, d) ∈ m.defs ∧ d.pub = true ∧ findMember ms cur v d.kind x = .one (some m.id) d.item := by
  have hsc := C80_scene hs hw h hc
  obtain ⟨ha, rfl⟩ := (C80_imports_exact hs hw).mp h
  obtain ⟨m, d, hm, hd, hp⟩ := ha.symbols x p hx
  refine ⟨m, d, hm, hd, hp, ((C80_lookup_exact hsc d.kind x).1 _ _).mpr ?_⟩
  refine .explicit (p := p) ?_ ?_ ⟨hm, d, hd, rfl, rfl, .inr hp⟩
  · rintro j ⟨e, he, -⟩
    exact ha.fresh x p (List.mem_append_right _ hx) (hl x (List.mem_map.mpr ⟨_, he, rfl⟩))
  · exact List.mem_append_left _ (List.mem_reverse.mpr hx)

/-! ### Privacy and growth -/

/-- **C80.** What a name of another module means is public there. -/
theorem C80_public {ms : Modules} {cur : Mod} {u : Uses} (hs : Scene ms cur u) {k x a i : Nat}
    (h : findMember ms cur u k x = .one (some a) i) :
    ∃ p m d, At ms p m ∧ m.id = a ∧ (x, d) ∈ m.defs ∧ d.kind = k ∧ d.item = i ∧ (m.id = cur.id ∨ d.pub = true) := by
  have := ((C80_lookup_exact hs k x).1 _ _).mp h
  cases this with
  | explicit _ _ ho =>
    obtain ⟨hm, d, h1, h2, h3, h4⟩ := ho
    exact ⟨_, _, d, hm, rfl, h1, h2, h3, h4⟩
  | wildcard _ _ _ ho _ =>
    obtain ⟨hm, d, h1, h2, h3, h4⟩ := ho
    exact ⟨_, _, d, hm, rfl, h1, h2, h3, h4⟩

/-- Modules grow: each keeps its path, its id and its definitions. -/
def Grows (ms ms' : Modules) : Prop :=
  ∀ p m, At ms p m → ∃ m', At ms' p m' ∧ m'.id = m.id ∧ ∀ e ∈ m.defs, e ∈ m'.defs

theorem Offers.grows {ms ms' : Modules} (hg : Grows ms ms') {f k x i : Nat} {p : Path} {m : Mod}
    (h : Offers ms f k x p m i) : ∃ m', Offers ms' f k x p m' i ∧ m'.id = m.id := by
  obtain ⟨hm, d, h1, h2, h3, h4⟩ := h
  obtain ⟨m', hm', hid, hd⟩ := hg p m hm
  exact ⟨m', ⟨hm', d, hd _ h1, h2, h3, by rw [hid]; exact h4⟩, hid⟩

theorem Offers.fun {ms : Modules} (hs : Sane ms) {f k x i j : Nat} {p : Path} {m n : Mod}
    (h1 : Offers ms f k x p m i) (h2 : Offers ms f k x p n j) : m = n ∧ i = j := by
  have hmn : m = n := by
    have := (at_iff hs).mpr h1.1
    rw [(at_iff hs).mpr h2.1] at this
    simpa using this.symm
  subst hmn
  refine ⟨rfl, ?_⟩
  have a := (offered_iff hs (r := (m.id, i))).mpr ⟨m, h1, rfl⟩
  have b := (offered_iff hs (r := (m.id, j))).mpr ⟨m, h2, rfl⟩
  rw [a] at b
  simpa using b

/-- **C80.** More wildcard imports and more definitions in other modules never silently change what a name means: it keeps
its meaning, or becomes an error. -/
theorem C80_growth {ms ms' : Modules} {cur : Mod} {u : Uses} (hs : Scene ms cur u) (hs' : Sane ms') (hg : Grows ms ms')
    (himp : ∀ x p, (x, p) ∈ u.explicits → ∃ m d, At ms p m ∧ (x, d) ∈ m.defs)
    {ws : List Path} (hw : u.wildcards.Sublist ws) {k x : Nat} {a : Option Nat} {i : Nat}
    (h : findMember ms cur u k x = .one a i) :
    findMember ms' cur { u with wildcards := ws } k x = .one a i
      ∨ findMember ms' cur { u with wildcards := ws } k x = .ambiguous := by
  have hsc : Scene ms' cur { u with wildcards := ws } := ⟨hs', hs.own, hs.once⟩
  rw [(C80_lookup_exact hsc k x).1]
  have hm := ((C80_lookup_exact hs k x).1 _ _).mp h
  cases hm with
  | own h => exact .inl (.own h)
  | explicit hno hp ho =>
    obtain ⟨m', ho', hid⟩ := ho.grows hg
    rw [← hid]
    exact .inl (.explicit hno hp ho')
  | @wildcard b c p m _ hno hne heq ho hq =>
    obtain ⟨m', ho', hid⟩ := ho.grows hg
    have hne' : ∀ q n j, (x, q) ∈ u.explicits → ¬ Offers ms' cur.id k x q n j := by
      intro q n j hxq hof
      obtain ⟨m0, d0, hm0, hd0⟩ := himp x q hxq
      obtain ⟨m1, hm1, hid1, hsub⟩ := hg q m0 hm0
      have hn1 : m1 = n := by
        have := (at_iff hs').mpr hm1
        rw [(at_iff hs').mpr hof.1] at this
        simpa using this.symm
      subst hn1
      obtain ⟨-, d, hd, hk, hi, hv⟩ := hof
      have hdd : d = d0 := by
        have h1 := (get_iff (hs'.names q m1 hm1)).mpr hd
        rw [(get_iff (hs'.names q m1 hm1)).mpr (hsub _ hd0)] at h1
        simpa using h1.symm
      subst hdd
      exact hne q m0 j hxq ⟨hm0, d, hd0, hk, hi, by rw [← hid1]; exact hv⟩
    by_cases htw : Twice ms' cur { u with wildcards := ws } k x
    · exact .inr ((C80_lookup_exact hsc k x).2.1.mpr ⟨hno, hne', htw⟩)
    · left
      rw [← hid]
      have hpw : p ∈ ws := hw.subset (by rw [heq]; simp)
      obtain ⟨b', c', hbc⟩ := List.append_of_mem hpw
      refine .wildcard hno hne' hbc ho' ?_
      intro q hq' n j hof
      apply htw
      rcases List.mem_append.mp hq' with hq' | hq'
      · obtain ⟨b1, b2, rfl⟩ := List.append_of_mem hq'
        exact ⟨b1, q, b2, p, c', n, j, m', _, by simpa using hbc, hof, ho'⟩
      · obtain ⟨c1, c2, rfl⟩ := List.append_of_mem hq'
        exact ⟨b', p, c1, q, c2, m', _, n, j, hbc, ho', hof⟩

/-! ### Wildcards of the same module -/

/-- **C80, violated.** One more wildcard import of the standard library, which every module imports already, is accepted, and
then every public name of the library is ambiguous though one module alone offers it. -/
theorem C80_same_violated {ms : Modules} (hs : Sane ms) {std : Mod} (hstd : At ms [0] std) (locals : List Nat) {cur : Mod}
    (hc : (cur.defs.map (·.1)).Nodup) :
    ∃ v, resolveImports ms locals [.glob (some [0])] Uses.withStd = .ok v
      ∧ ∀ x d, (x, d) ∈ std.defs → d.pub = true → (∀ i, ¬ Own cur d.kind x i) →
        findMember ms cur Uses.withStd d.kind x = .one (some std.id) d.item
        ∧ findMember ms cur v d.kind x = .ambiguous := by
  have hw : AllWritten [UseTree.glob (some [0])] := by simp [AllWritten, UseTree.Written]
  refine ⟨⟨[], [[0], [0]]⟩, (C80_imports_exact hs hw).mpr ⟨⟨?_, ?_, ?_, ?_⟩, ?_⟩, ?_⟩
  · intro p hp
    simp only [plainAll, UseTree.plain, wildcardOf, Option.getD_some, List.nil_append, List.append_nil,
      List.mem_singleton] at hp
    subst hp
    exact ⟨_, hstd⟩
  · simp [plainAll, UseTree.plain, explicitOf]
  · simp [plainAll, UseTree.plain, explicitOf, Uses.withStd]
  · simp [plainAll, UseTree.plain, explicitOf, Uses.withStd]
  · simp [plainAll, UseTree.plain, explicitOf, Uses.withStd, wildcardOf]
  · intro x d hd hp hno
    have ho : Offers ms cur.id d.kind x [0] std d.item := ⟨hstd, d, hd, rfl, rfl, .inr hp⟩
    have h1 : Scene ms cur Uses.withStd := ⟨hs, hc, by simp [Uses.withStd]⟩
    have h2 : Scene ms cur ⟨[], [[0], [0]]⟩ := ⟨hs, hc, by simp⟩
    constructor
    · rw [(C80_lookup_exact h1 _ _).1]
      exact .wildcard (a := []) (b := []) (p := [0]) hno (by simp [Uses.withStd]) rfl ho (by simp)
    · rw [(C80_lookup_exact h2 _ _).2.1]
      exact ⟨hno, by simp, [], [0], [], [0], [], std, _, std, _, rfl, ho, ho⟩

/-- **C80, in part.** If no module is imported twice by a wildcard, then a name is ambiguous only if two different modules offer
it.  Missing: repeated wildcards. -/
theorem C80_ambiguous_partial {ms : Modules} {cur : Mod} {u : Uses} (hs : Scene ms cur u) (hu : u.wildcards.Nodup) {k x : Nat}
    (h : findMember ms cur u k x = .ambiguous) :
    ∃ p q m n i j, p ∈ u.wildcards ∧ q ∈ u.wildcards ∧ p ≠ q ∧ Offers ms cur.id k x p m i ∧ Offers ms cur.id k x q n j := by
  obtain ⟨-, -, a, p, b, q, c, m, i, n, j, hw, hp, hq⟩ := (C80_lookup_exact hs k x).2.1.mp h
  refine ⟨p, q, m, n, i, j, by rw [hw]; simp, by rw [hw]; simp, ?_, hp, hq⟩
  rintro rfl
  rw [hw] at hu
  have := (List.nodup_append.mp hu).2.1
  simp at this

/-! ### Qualified names -/

/-- **C80.** A name without a path means what the lookup of names says: `x` here, the import of `x`, or the wildcard that offers
it. -/
theorem C80_unqualified {ms : Modules} {cur : Mod} {u : Uses} (hs : Scene ms cur u) (k x : Nat) :
    (∀ a i, findByPath ms cur u k [x] = .one a i ↔ Means ms cur u k x a i)
    ∧ (findByPath ms cur u k [x] = .ambiguous ↔
        (∀ i, ¬ Own cur k x i) ∧ (∀ q n j, (x, q) ∈ u.explicits → ¬ Offers ms cur.id k x q n j) ∧ Twice ms cur u k x) :=
  ⟨(C80_lookup_exact hs k x).1, (C80_lookup_exact hs k x).2.1⟩

/-- **C80.** A qualified name means the public item of that module and is never ambiguous; within the standard library
`std::x` is `x`. -/
theorem C80_qualified {ms : Modules} (hs : Sane ms) {cur : Mod} {u : Uses} {k x : Nat} {q : Path} (hq : q ≠ []) :
    (q = [0] ∧ cur.id = stdId → findByPath ms cur u k (q ++ [x]) = findMember ms cur u k x)
    ∧ (¬ (q = [0] ∧ cur.id = stdId) →
        (∀ a i, findByPath ms cur u k (q ++ [x]) = .one a i ↔ ∃ m, Offers ms cur.id k x q m i ∧ a = some m.id)
        ∧ findByPath ms cur u k (q ++ [x]) ≠ .ambiguous) := by
  obtain ⟨y, q', rfl⟩ := List.exists_cons_of_ne_nil hq
  have hsplit : splitLast (y :: q' ++ [x]) = some (y :: q', x) := by
    unfold splitLast
    rw [List.getLast?_append, List.dropLast_append_of_ne_nil (by simp)]
    simp
  have hun : findByPath ms cur u k (y :: q' ++ [x])
      = if (y :: q') = [0] ∧ cur.id = stdId then findMember ms cur u k x
        else match offered ms k x cur.id (y :: q') with
          | some (m, i) => .one (some m) i
          | none => .nothing := by
    unfold findByPath
    split
    · rename_i h
      cases q' <;> simp at h
    · simp only [hsplit]
      rfl
  rw [hun]
  refine ⟨fun h => if_pos h, fun h => ?_⟩
  rw [if_neg h]
  cases ho : offered ms k x cur.id (y :: q') with
  | none =>
    refine ⟨fun a i => ?_, by simp⟩
    simp only [reduceCtorEq, false_iff]
    rintro ⟨m, hm, -⟩
    exact (offered_none hs).mp ho m i hm
  | some r =>
    obtain ⟨m0, i0⟩ := r
    obtain ⟨m, hm, hid⟩ := (offered_iff hs).mp ho
    simp only at hm hid
    subst hid
    refine ⟨fun a i => ?_, by simp⟩
    simp only [Found.one.injEq]
    constructor
    · rintro ⟨rfl, rfl⟩
      exact ⟨m, hm, rfl⟩
    · rintro ⟨n, hn, rfl⟩
      obtain ⟨rfl, rfl⟩ := hm.fun hs hn
      exact ⟨rfl, rfl⟩

/-! ### Methods of traits -/

/-- The place of the first method of a name. -/
def FirstAt (methods : List Nat) (name j : Nat) : Prop :=
  methods[j]? = some name ∧ ∀ j' < j, methods[j']? ≠ some name

/-- The traits with a method of the name which can be used without naming the trait: those of the current module, those imported
by name, and those of modules imported by a wildcard. -/
inductive InScope (ms : Modules) (cur : Mod) (u : Uses) (name : Nat) : Nat × Nat → Nat → Prop
  | own {x d j} : (x, d) ∈ cur.defs → d.kind = traitKind → FirstAt d.methods name j → InScope ms cur u name (cur.id, x) j
  | explicit {x p m d j} : (x, p) ∈ u.explicits → At ms p m → (x, d) ∈ m.defs → d.kind = traitKind →
      (m.id = cur.id ∨ d.pub = true) → FirstAt d.methods name j → InScope ms cur u name (m.id, x) j
  | wildcard {x p m d j} : p ∈ u.wildcards → At ms p m → (x, d) ∈ m.defs → d.kind = traitKind →
      (m.id = cur.id ∨ d.pub = true) → FirstAt d.methods name j → InScope ms cur u name (m.id, x) j

theorem methodIn_iff {methods : List Nat} {name j : Nat} : methodIn methods name = some j ↔ FirstAt methods name j := by
  unfold methodIn FirstAt
  rw [List.findIdx?_eq_some_iff_getElem]
  constructor
  · rintro ⟨h, h1, h2⟩
    refine ⟨by rw [List.getElem?_eq_getElem h]; simpa using h1, ?_⟩
    intro j' hj' he
    obtain ⟨hl, he⟩ := List.getElem?_eq_some_iff.mp he
    have := h2 j' hj'
    simp [he] at this
  · rintro ⟨h1, h2⟩
    obtain ⟨hl, he⟩ := List.getElem?_eq_some_iff.mp h1
    refine ⟨hl, by simpa using he, ?_⟩
    intro j' hj'
    have := h2 j' hj'
    rw [List.getElem?_eq_getElem (by omega)] at this
    simpa using this

theorem accessible_iff {m : Mod} (hn : (m.defs.map (·.1)).Nodup) {x f : Nat} {d : Def} (hd : (x, d) ∈ m.defs) :
    accessible m x f = true ↔ m.id = f ∨ d.pub = true := by
  unfold accessible
  rw [(get_iff hn).mpr hd]
  simp

theorem collectFrom_iff {m : Mod} (hn : (m.defs.map (·.1)).Nodup) {own : Bool} {f name : Nat} {t : Nat × Nat} {j : Nat} :
    (t, j) ∈ collectFrom m own f name ↔
      ∃ x d, (x, d) ∈ m.defs ∧ d.kind = traitKind ∧ (own = true ∨ m.id = f ∨ d.pub = true) ∧ FirstAt d.methods name j
        ∧ t = (m.id, x) := by
  unfold collectFrom
  rw [List.mem_filterMap]
  constructor
  · rintro ⟨⟨x, d⟩, he, h⟩
    simp only at h
    split at h
    · split at h
      · cases h
      · rename_i hk hacc
        simp only [Option.map_eq_some_iff, Prod.mk.injEq] at h
        obtain ⟨j', hj, rfl, rfl⟩ := h
        refine ⟨x, d, he, hk, ?_, methodIn_iff.mp hj, rfl⟩
        rw [← accessible_iff hn he]
        cases own <;> simp_all
    · cases h
  · rintro ⟨x, d, he, hk, hv, hj, rfl⟩
    refine ⟨(x, d), he, ?_⟩
    simp only [if_pos hk]
    rw [if_neg, methodIn_iff.mpr hj]
    · rfl
    · rw [← accessible_iff hn he] at hv
      cases own <;> simp_all

theorem collected_iff {ms : Modules} {cur : Mod} {u : Uses} (hs : Scene ms cur u) {name : Nat} {t : Nat × Nat} {j : Nat} :
    (t, j) ∈ collectFrom cur true cur.id name ++ u.explicits.flatMap (collectExplicit ms cur.id name)
      ++ u.wildcards.flatMap (collectWildcard ms cur.id name) ↔ InScope ms cur u name t j := by
  simp only [List.mem_append, List.mem_flatMap]
  constructor
  · rintro ((h | ⟨⟨x, p⟩, he, h⟩) | ⟨p, hp, h⟩)
    · obtain ⟨x, d, hd, hk, -, hj, rfl⟩ := (collectFrom_iff hs.own).mp h
      exact .own hd hk hj
    · unfold collectExplicit at h
      cases hm : ms.compiled p with
      | none => simp [hm] at h
      | some m =>
        have ha := (at_iff hs.sane).mp hm
        have hn := hs.sane.names p m ha
        cases hd : m.get x with
        | none => simp [hm, hd] at h
        | some d =>
          have hd' := (get_iff hn).mp hd
          simp only [hm, hd] at h
          split at h
          · split at h
            · rename_i hk hv
              simp only [Option.mem_toList, Option.mem_def, Option.map_eq_some_iff, Prod.mk.injEq] at h
              obtain ⟨j', hj, rfl, rfl⟩ := h
              exact .explicit he ha hd' hk ((accessible_iff hn hd').mp hv) (methodIn_iff.mp hj)
            · simp at h
          · simp at h
    · unfold collectWildcard at h
      split at h
      · rename_i m hm
        have ha := (at_iff hs.sane).mp hm
        obtain ⟨x, d, hd, hk, hv, hj, rfl⟩ := (collectFrom_iff (hs.sane.names p m ha)).mp h
        exact .wildcard hp ha hd hk (by simpa using hv) hj
      · simp at h
  · intro h
    cases h with
    | own hd hk hj => exact .inl (.inl ((collectFrom_iff hs.own).mpr ⟨_, _, hd, hk, .inl rfl, hj, rfl⟩))
    | @explicit x p m d _ he ha hd hk hv hj =>
      refine .inl (.inr ⟨(x, p), he, ?_⟩)
      have hn := hs.sane.names p m ha
      unfold collectExplicit
      simp only [(at_iff hs.sane).mpr ha, (get_iff hn).mpr hd, if_pos hk, if_pos ((accessible_iff hn hd).mpr hv),
        methodIn_iff.mpr hj]
      simp
    | @wildcard x p m d _ hp ha hd hk hv hj =>
      refine .inr ⟨p, hp, ?_⟩
      unfold collectWildcard
      rw [(at_iff hs.sane).mpr ha]
      exact (collectFrom_iff (hs.sane.names p m ha)).mpr ⟨x, d, hd, hk, .inr hv, hj, rfl⟩

theorem dedup_sub {l : List ((Nat × Nat) × Nat)} {e} (h : e ∈ dedupTraits l) : e ∈ l := by
  induction l with
  | nil => cases h
  | cons t l ih =>
    simp only [dedupTraits, List.mem_cons, List.mem_filter] at h
    rcases h with rfl | ⟨h, -⟩
    · exact List.mem_cons_self
    · exact List.mem_cons_of_mem _ (ih h)

theorem dedup_key {l : List ((Nat × Nat) × Nat)} {e} (h : e ∈ l) : ∃ j, (e.1, j) ∈ dedupTraits l := by
  induction l with
  | nil => cases h
  | cons t l ih =>
    simp only [dedupTraits, List.mem_cons, List.mem_filter]
    by_cases he : e.1 = t.1
    · exact ⟨t.2, .inl (by rw [he])⟩
    · rcases List.mem_cons.mp h with rfl | h
      · exact absurd rfl he
      · obtain ⟨j, hj⟩ := ih h
        exact ⟨j, .inr ⟨hj, by simpa using he⟩⟩

theorem dedup_nodup (l : List ((Nat × Nat) × Nat)) : ((dedupTraits l).map (·.1)).Nodup := by
  induction l with
  | nil => simp [dedupTraits]
  | cons t l ih =>
    simp only [dedupTraits, List.map_cons, List.nodup_cons, List.mem_map, List.mem_filter, not_exists, not_and]
    refine ⟨?_, ih.sublist (List.filter_sublist.map _)⟩
    rintro e ⟨-, h⟩ he
    simp [he] at h

/-- Modules have their own ids, also the current one. -/
structure Ids (ms : Modules) (cur : Mod) : Prop where
  inj : ∀ p q m n, At ms p m → At ms q n → m.id = n.id → m = n
  cur : ∀ p m, At ms p m → m.id ≠ cur.id

theorem FirstAt.unique {methods : List Nat} {name i j : Nat} (h1 : FirstAt methods name i) (h2 : FirstAt methods name j) :
    i = j := by
  rcases Nat.lt_trichotomy i j with h | h | h
  · exact absurd h1.1 (h2.2 i h)
  · exact h
  · exact absurd h2.1 (h1.2 j h)

/-- A trait in scope is a trait of one module. -/
theorem InScope.parts {ms : Modules} {cur : Mod} {u : Uses} {name : Nat} {t : Nat × Nat} {j : Nat}
    (h : InScope ms cur u name t j) :
    ∃ m d, (m = cur ∨ ∃ p, At ms p m) ∧ m.id = t.1 ∧ (t.2, d) ∈ m.defs ∧ FirstAt d.methods name j := by
  cases h with
  | own hd _ hj => exact ⟨cur, _, .inl rfl, rfl, hd, hj⟩
  | explicit _ ha hd _ _ hj => exact ⟨_, _, .inr ⟨_, ha⟩, rfl, hd, hj⟩
  | wildcard _ ha hd _ _ hj => exact ⟨_, _, .inr ⟨_, ha⟩, rfl, hd, hj⟩

theorem InScope.index {ms : Modules} {cur : Mod} {u : Uses} (hs : Scene ms cur u) (hi : Ids ms cur) {name : Nat}
    {t : Nat × Nat} {i j : Nat} (h1 : InScope ms cur u name t i) (h2 : InScope ms cur u name t j) : i = j := by
  obtain ⟨m, d, hm, hid, hd, hj⟩ := h1.parts
  obtain ⟨m', d', hm', hid', hd', hj'⟩ := h2.parts
  have hmm : m = m' ∧ (m.defs.map (·.1)).Nodup := by
    rcases hm with rfl | ⟨p, hp⟩
    · refine ⟨?_, hs.own⟩
      rcases hm' with rfl | ⟨q, hq⟩
      · rfl
      · exact absurd (hid'.trans hid.symm) (hi.cur q m' hq)
    · refine ⟨?_, hs.sane.names p m hp⟩
      rcases hm' with rfl | ⟨q, hq⟩
      · exact absurd (hid.trans hid'.symm) (hi.cur p m hp)
      · exact hi.inj p q m m' hp hq (hid.trans hid'.symm)
  obtain ⟨rfl, hn⟩ := hmm
  have hdd : d = d' := by
    have := (get_iff hn).mpr hd
    rw [(get_iff hn).mpr hd'] at this
    simpa using this.symm
  subst hdd
  exact hj.unique hj'

/-- **C80.** A method without its trait means that of the only trait in scope which has it, however often and in whatever ways
the trait is imported; it is ambiguous exactly if two different traits in scope have it. -/
theorem C80_methods_exact {ms : Modules} {cur : Mod} {u : Uses} (hs : Scene ms cur u) (hi : Ids ms cur) (name : Nat) :
    (∀ t j, findMethod ms cur u name = .one t j ↔
      InScope ms cur u name t j ∧ ∀ t' j', InScope ms cur u name t' j' → t' = t)
    ∧ (findMethod ms cur u name = .ambiguous ↔
      ∃ t j t' j', InScope ms cur u name t j ∧ InScope ms cur u name t' j' ∧ t ≠ t')
    ∧ (findMethod ms cur u name = .nothing ↔ ∀ t j, ¬ InScope ms cur u name t j) := by
  unfold findMethod
  have hc := @collected_iff ms cur u hs name
  revert hc
  generalize collectFrom cur true cur.id name ++ u.explicits.flatMap (collectExplicit ms cur.id name)
      ++ u.wildcards.flatMap (collectWildcard ms cur.id name) = l
  intro hc
  have hsub : ∀ e, e ∈ dedupTraits l → InScope ms cur u name e.1 e.2 := fun e he => hc.mp (dedup_sub he)
  have hkey : ∀ t j, InScope ms cur u name t j → ∃ j', (t, j') ∈ dedupTraits l := fun t j h => dedup_key (hc.mpr h)
  have hnd := dedup_nodup l
  revert hsub hkey hnd
  generalize dedupTraits l = r
  intro hsub hkey hnd
  rcases r with _ | ⟨⟨t, j⟩, _ | ⟨⟨t', j'⟩, rest⟩⟩
  · have hno : ∀ t j, ¬ InScope ms cur u name t j := by
      intro t j h
      obtain ⟨j', hj⟩ := hkey t j h
      cases hj
    refine ⟨fun t j => ?_, ?_, ?_⟩
    · simp [hno]
    · simp [hno]
    · simp [hno]
  · have h0 := hsub (t, j) (by simp)
    simp only at h0
    have hall : ∀ t' j', InScope ms cur u name t' j' → t' = t := by
      intro t' j' h
      obtain ⟨j2, hj⟩ := hkey t' j' h
      simp only [List.mem_singleton, Prod.mk.injEq] at hj
      exact hj.1
    refine ⟨fun t1 j1 => ?_, ?_, ?_⟩
    · simp only [Method.one.injEq]
      constructor
      · rintro ⟨rfl, rfl⟩
        exact ⟨h0, hall⟩
      · rintro ⟨h1, -⟩
        have := hall t1 j1 h1
        subst this
        exact ⟨rfl, h0.index hs hi h1⟩
    · simp only [reduceCtorEq, false_iff]
      rintro ⟨t1, j1, t2, j2, h1, h2, hne⟩
      exact hne ((hall _ _ h1).trans (hall _ _ h2).symm)
    · simp only [reduceCtorEq, false_iff]
      exact fun h => h t j h0
  · have h0 := hsub (t, j) (by simp)
    have h1 := hsub (t', j') (by simp)
    have hne : t ≠ t' := by
      intro he
      simp [he] at hnd
    simp only at h0 h1
    refine ⟨fun t1 j1 => ?_, ?_, ?_⟩
    · simp only [reduceCtorEq, false_iff]
      rintro ⟨-, h2⟩
      exact hne ((h2 _ _ h0).trans (h2 _ _ h1).symm)
    · simp only [true_iff]
      exact ⟨t, j, t', j', h0, h1, hne⟩
    · simp only [reduceCtorEq, false_iff]
      exact fun h => h t j h0

/-- **C80.** Methods do not care for repeated, reordered or regrouped imports. -/
theorem C80_methods_order {ms : Modules} {cur : Mod} {u v : Uses} (hs : Scene ms cur u) (hs' : Scene ms cur v) (hi : Ids ms cur)
    (he : ∀ e, e ∈ u.explicits ↔ e ∈ v.explicits) (hw : ∀ p, p ∈ u.wildcards ↔ p ∈ v.wildcards) (name : Nat) :
    findMethod ms cur u name = findMethod ms cur v name := by
  have hsc : ∀ t j, InScope ms cur u name t j ↔ InScope ms cur v name t j := by
    intro t j
    constructor
    · intro h
      cases h with
      | own a b c => exact .own a b c
      | explicit a b c d e f => exact .explicit ((he _).mp a) b c d e f
      | wildcard a b c d e f => exact .wildcard ((hw _).mp a) b c d e f
    · intro h
      cases h with
      | own a b c => exact .own a b c
      | explicit a b c d e f => exact .explicit ((he _).mpr a) b c d e f
      | wildcard a b c d e f => exact .wildcard ((hw _).mpr a) b c d e f
  obtain ⟨h1, h2, h3⟩ := C80_methods_exact hs hi name
  obtain ⟨g1, g2, g3⟩ := C80_methods_exact hs' hi name
  simp only [hsc] at h1 h2 h3
  cases hm : findMethod ms cur u name with
  | nothing => rw [g3.mpr (h3.mp hm)]
  | one t j => rw [(g1 t j).mpr ((h1 t j).mp hm)]
  | ambiguous => rw [g2.mpr (h2.mp hm)]

/-! ### Examples -/

/-- A library with a function and a trait, and two modules with a function of the same name. -/
def exModules : Modules :=
  [([0], some ⟨0, [(1, ⟨0, true, 10, []⟩), (2, ⟨2, true, 11, [7, 8]⟩), (3, ⟨0, false, 12, []⟩)]⟩),
   ([5], some ⟨1, [(1, ⟨0, true, 20, []⟩), (4, ⟨1, true, 21, []⟩)]⟩),
   ([5, 6], some ⟨2, [(9, ⟨0, true, 30, []⟩), (4, ⟨1, true, 31, []⟩)]⟩),
   ([7], none)]

/-- The current module. -/
def exCur : Mod := ⟨3, [(12, ⟨0, false, 40, []⟩)]⟩

/-- `use m5::{ f1, m6::* };` -/
def exTrees : List UseTree := [.group (some [5]) [.name [1], .glob (some [6])]]

theorem exModules_sane : Sane exModules := by
  refine ⟨by decide, ?_⟩
  intro p m h
  simp only [At, exModules, List.mem_cons, Prod.mk.injEq, Option.some.injEq, List.not_mem_nil, or_false, reduceCtorEq,
    and_false] at h
  rcases h with ⟨-, rfl⟩ | ⟨-, rfl⟩ | ⟨-, rfl⟩ <;> decide

theorem exModules_ids : Ids exModules exCur := by
  constructor
  · intro p q m n hp hq h
    simp only [At, exModules, List.mem_cons, Prod.mk.injEq, Option.some.injEq, List.not_mem_nil, or_false, reduceCtorEq,
      and_false] at hp hq
    rcases hp with ⟨-, rfl⟩ | ⟨-, rfl⟩ | ⟨-, rfl⟩ <;> rcases hq with ⟨-, rfl⟩ | ⟨-, rfl⟩ | ⟨-, rfl⟩ <;> simp_all
  · intro p m hp
    simp only [At, exModules, List.mem_cons, Prod.mk.injEq, Option.some.injEq, List.not_mem_nil, or_false, reduceCtorEq,
      and_false] at hp
    rcases hp with ⟨-, rfl⟩ | ⟨-, rfl⟩ | ⟨-, rfl⟩ <;> simp [exCur]

theorem exResolved : resolveImports exModules [12] exTrees Uses.withStd = .ok ⟨[(1, [5])], [[0], [5, 6]]⟩ := by
  have hw : AllWritten exTrees := by simp [exTrees, AllWritten, UseTree.Written]
  rw [C80_imports_exact exModules_sane hw]
  refine ⟨⟨?_, ?_, ?_, ?_⟩, ?_⟩
  · simp [exTrees, plainAll, UseTree.plain, wildcardOf, exModules]
  · simp [exTrees, plainAll, UseTree.plain, explicitOf, exModules, At]
  · simp [exTrees, plainAll, UseTree.plain, explicitOf, Uses.withStd]
  · simp [exTrees, plainAll, UseTree.plain, explicitOf, Uses.withStd]
  · simp [exTrees, plainAll, UseTree.plain, explicitOf, wildcardOf, Uses.withStd]

/-- The imported function wins over that of the library; the type comes from the wildcard; the private function is not seen; the
method is that of the library. -/
example : findMember exModules exCur ⟨[(1, [5])], [[0], [5, 6]]⟩ 0 1 = .one (some 1) 20
    ∧ findMember exModules exCur ⟨[(1, [5])], [[0], [5, 6]]⟩ 1 4 = .one (some 2) 31
    ∧ findMember exModules exCur ⟨[(1, [5])], [[0], [5, 6]]⟩ 0 3 = .nothing
    ∧ findMember exModules exCur ⟨[(1, [5])], [[0], [5, 6], [5]]⟩ 1 4 = .ambiguous
    ∧ findMethod exModules exCur ⟨[(1, [5])], [[0], [5, 6]]⟩ 8 = .one (0, 2) 1
    ∧ findMethod exModules exCur ⟨[(1, [5])], [[0], [5, 6], [0]]⟩ 8 = .one (0, 2) 1 := by decide

/-- The hypotheses of the theorems on imports and lookup hold together. -/
example : Scene exModules exCur ⟨[(1, [5])], [[0], [5, 6]]⟩ :=
  C80_scene exModules_sane (by simp [exTrees, AllWritten, UseTree.Written]) exResolved (by decide)

/-- `use m5::f1; use m5::m6::*;` in another order is the same. -/
example : (plainAll [] exTrees).Perm (plainAll [] [.glob (some [5, 6]), .name [5, 1]]) := by
  simp [exTrees, plainAll, UseTree.plain, List.Perm.swap]

/-- `C80_import_wins` at work. -/
example : ∃ m d, At exModules [5] m ∧ (1, d) ∈ m.defs ∧ d.pub = true
    ∧ findMember exModules exCur ⟨[(1, [5])], [[0], [5, 6]]⟩ d.kind 1 = .one (some m.id) d.item :=
  C80_import_wins exModules_sane (by simp [exTrees, AllWritten, UseTree.Written]) exResolved (by decide) (by decide)
    (by simp [exTrees, plainAll, UseTree.plain, explicitOf])

/-- `C80_same_violated` at work. -/
example : ∃ v, resolveImports exModules [12] [.glob (some [0])] Uses.withStd = .ok v
    ∧ findMember exModules exCur v 0 1 = .ambiguous := by
  obtain ⟨v, hv, h⟩ := C80_same_violated exModules_sane (std := ⟨0, [(1, ⟨0, true, 10, []⟩), (2, ⟨2, true, 11, [7, 8]⟩),
    (3, ⟨0, false, 12, []⟩)]⟩) (by simp [At, exModules]) [12] (cur := exCur) (by decide)
  refine ⟨v, hv, (h 1 ⟨0, true, 10, []⟩ (by simp) rfl ?_).2⟩
  rintro i ⟨d, hd, -⟩
  simp [exCur] at hd

/-- `C80_panic_violated` at work. -/
example : resolveImports exModules [12] [.glob none] Uses.withStd = .error .panic :=
  (C80_panic_violated (by simp [exModules]) [12]).1

/-- `C80_growth` at work: another module has a type of the same name and is imported as well. -/
example : findMember (([9], some ⟨4, [(4, ⟨1, true, 50, []⟩)]⟩) :: exModules) exCur ⟨[(1, [5])], [[0], [5, 6], [9]]⟩ 1 4
    = .ambiguous
    ∧ (findMember (([9], some ⟨4, [(4, ⟨1, true, 50, []⟩)]⟩) :: exModules) exCur ⟨[(1, [5])], [[0], [5, 6], [9]]⟩ 0 1
        = .one (some 1) 20
      ∨ findMember (([9], some ⟨4, [(4, ⟨1, true, 50, []⟩)]⟩) :: exModules) exCur ⟨[(1, [5])], [[0], [5, 6], [9]]⟩ 0 1
        = .ambiguous) := by
  refine ⟨by decide, ?_⟩
  refine C80_growth (ms := exModules) (u := ⟨[(1, [5])], [[0], [5, 6]]⟩) (ws := [[0], [5, 6], [9]])
    (C80_scene exModules_sane (by simp [exTrees, AllWritten, UseTree.Written]) exResolved (by decide)) ⟨by decide, ?_⟩ ?_ ?_
    (by decide) (by decide)
  · intro p m h
    rcases List.mem_cons.mp h with h | h
    · cases h
      decide
    · exact exModules_sane.names p m h
  · exact fun p m h => ⟨m, List.mem_cons_of_mem _ h, rfl, fun _ h => h⟩
  · intro x p h
    simp only [List.mem_singleton, Prod.mk.injEq] at h
    obtain ⟨rfl, rfl⟩ := h
    exact ⟨⟨1, [(1, ⟨0, true, 20, []⟩), (4, ⟨1, true, 21, []⟩)]⟩, ⟨0, true, 20, []⟩, by simp [At, exModules], by simp⟩

end Ferlium.Import
