import Verif.Model.Import

/-! Specification of imports and names, and lemmas for `Verif.Props.Import`. -/
namespace Ferlium.Import

/-- A plain import: everything of a module, or one name of a module. -/
inductive Plain
  | all (p : Path)
  | one (p : Path) (x : Nat)

mutual

/-- The plain imports which a `use` tree abbreviates, below a path. -/
def UseTree.plain (base : Path) : UseTree → List Plain
  | .glob path => [.all (base ++ path.getD [])]
  | .group path children => plainAll (base ++ path.getD []) children
  | .name path => [.one (base ++ path).dropLast ((base ++ path).getLast?.getD 0)]

/-- The plain imports of several trees. -/
def plainAll (base : Path) : List UseTree → List Plain
  | [] => []
  | t :: rest => t.plain base ++ plainAll base rest

end

mutual

/-- The grammar only makes named imports with a path which is not empty. -/
def UseTree.Written : UseTree → Prop
  | .glob _ => True
  | .group _ children => AllWritten children
  | .name path => path ≠ []

/-- The same for several trees. -/
def AllWritten : List UseTree → Prop
  | [] => True
  | t :: rest => t.Written ∧ AllWritten rest

end

/-- The explicit names of plain imports, with their modules. -/
def explicitOf : List Plain → List (Nat × Path)
  | [] => []
  | .all _ :: rest => explicitOf rest
  | .one p x :: rest => (x, p) :: explicitOf rest

/-- The modules imported as a whole. -/
def wildcardOf : List Plain → List Path
  | [] => []
  | .all p :: rest => p :: wildcardOf rest
  | .one _ _ :: rest => wildcardOf rest

/-- A compiled module is registered under a path. -/
def At (ms : Modules) (p : Path) (m : Mod) : Prop := (p, some m) ∈ ms

/-- Paths are registered once, and a module defines a name once. -/
structure Sane (ms : Modules) : Prop where
  paths : (ms.map (·.1)).Nodup
  names : ∀ p m, At ms p m → (m.defs.map (·.1)).Nodup

/-- What a list of imports has to fulfil. -/
structure Valid (ms : Modules) (locals : List Nat) (old : List (Nat × Path)) (imps : List Plain) : Prop where
  modules : ∀ p ∈ wildcardOf imps, ∃ e, (p, e) ∈ ms
  symbols : ∀ x p, (x, p) ∈ explicitOf imps → ∃ m d, At ms p m ∧ (x, d) ∈ m.defs ∧ d.pub = true
  once : ((old ++ explicitOf imps).map (·.1)).Nodup
  fresh : ∀ x p, (x, p) ∈ old ++ explicitOf imps → x ∉ locals

/-! ### Finding -/

theorem find_key {α β : Type} [BEq α] [LawfulBEq α] {l : List (α × β)} (hn : (l.map (·.1)).Nodup) {k : α} {v : β} :
    (l.find? (fun e => e.1 == k)).map (·.2) = some v ↔ (k, v) ∈ l := by
  induction l with
  | nil => simp
  | cons e l ih =>
    obtain ⟨a, b⟩ := e
    simp only [List.map_cons, List.nodup_cons, List.mem_map, not_exists, not_and] at hn
    simp only [List.find?_cons]
    by_cases hk : a == k
    · rw [beq_iff_eq] at hk
      subst hk
      simp only [beq_self_eq_true, Option.map_some, Option.some.injEq, List.mem_cons, Prod.mk.injEq, true_and]
      refine ⟨fun h => .inl h.symm, ?_⟩
      rintro (h | h)
      · exact h.symm
      · exact absurd rfl (hn.1 _ h)
    · simp only [hk, List.mem_cons, Prod.mk.injEq]
      rw [ih hn.2]
      refine ⟨.inr, ?_⟩
      rintro (⟨h, -⟩ | h)
      · exact absurd (beq_iff_eq.mpr h.symm) hk
      · exact h

theorem find_none {α β : Type} [BEq α] [LawfulBEq α] {l : List (α × β)} {k : α} :
    (l.find? (fun e => e.1 == k)).map (·.2) = none ↔ ∀ v, (k, v) ∉ l := by
  simp only [Option.map_eq_none_iff, List.find?_eq_none, beq_iff_eq, Prod.forall]
  exact ⟨fun h v hv => h k v hv rfl, fun h a b hab hk => h b (hk ▸ hab)⟩

theorem at_iff {ms : Modules} (hs : Sane ms) {p : Path} {m : Mod} : ms.compiled p = some m ↔ At ms p m := by
  unfold Modules.compiled Modules.get At
  rw [← find_key hs.paths]
  cases (ms.find? (fun e => e.1 == p)).map (·.2) with
  | none => simp
  | some e => cases e <;> simp

theorem get_iff {m : Mod} (hn : (m.defs.map (·.1)).Nodup) {x : Nat} {d : Def} : m.get x = some d ↔ (x, d) ∈ m.defs :=
  find_key hn

theorem moduleExists_iff {ms : Modules} {p : Path} : moduleExists ms p = true ↔ ∃ e, (p, e) ∈ ms := by
  unfold moduleExists Modules.get
  rw [Option.isSome_iff_ne_none, ne_eq, find_none]
  simp

theorem importExists_iff {ms : Modules} (hs : Sane ms) {p : Path} {x : Nat} :
    importExists ms p x = true ↔ ∃ m d, At ms p m ∧ (x, d) ∈ m.defs ∧ d.pub = true := by
  unfold importExists
  constructor
  · intro h
    split at h
    · rename_i m hm
      rw [List.any_eq_true] at h
      obtain ⟨⟨y, d⟩, he, h⟩ := h
      simp only [Bool.and_eq_true, beq_iff_eq] at h
      obtain ⟨hp, rfl⟩ := h
      exact ⟨m, d, (at_iff hs).mp hm, he, hp⟩
    · simp at h
  · rintro ⟨m, d, hm, he, hp⟩
    rw [(at_iff hs).mpr hm]
    simp only [List.any_eq_true]
    exact ⟨(x, d), he, by simp [hp]⟩

/-! ### Resolution of imports -/

/-- One plain import. -/
def step (ms : Modules) (locals : List Nat) : Plain → List Nat × Uses → Except Err (List Nat × Uses)
  | .all p, (seen, uses) =>
    if moduleExists ms p then .ok (seen, { uses with wildcards := uses.wildcards ++ [p] })
    else if p = [] then .error .panic
    else .error (.notFound p none)
  | .one p x, (seen, uses) =>
    if moduleExists ms p then
      if importExists ms p x then
        match register x locals seen with
        | .error e => .error e
        | .ok seen => .ok (seen, { uses with explicits := (x, p) :: uses.explicits })
      else .error (.notFound p (some x))
    else .error (.notFound p none)

/-- Plain imports one after the other. -/
def run (ms : Modules) (locals : List Nat) : List Plain → List Nat × Uses → Except Err (List Nat × Uses)
  | [], st => .ok st
  | i :: rest, st =>
    match step ms locals i st with
    | .error e => .error e
    | .ok st => run ms locals rest st

theorem run_append (ms : Modules) (locals : List Nat) (a b : List Plain) (st : List Nat × Uses) :
    run ms locals (a ++ b) st
      = match run ms locals a st with | .error e => .error e | .ok st => run ms locals b st := by
  induction a generalizing st with
  | nil => simp [run]
  | cons i a ih =>
    simp only [List.cons_append, run]
    cases step ms locals i st with
    | error e => rfl
    | ok st => exact ih st

mutual

theorem resolveOne_run (ms : Modules) (locals : List Nat) (base : Path) (t : UseTree) (ht : t.Written)
    (st : List Nat × Uses) : resolveOne ms locals base t st = run ms locals (t.plain base) st := by
  match t with
  | .glob path =>
    obtain ⟨seen, uses⟩ := st
    simp only [resolveOne, UseTree.plain, run, step]
    split
    · rfl
    · split <;> rfl
  | .group path children =>
    simp only [resolveOne, UseTree.plain]
    rw [UseTree.Written] at ht
    exact resolveAll_run ms locals _ children ht st
  | .name path =>
    obtain ⟨seen, uses⟩ := st
    have hne : base ++ path ≠ [] := by
      rw [UseTree.Written] at ht
      simp [ht]
    simp only [resolveOne, UseTree.plain, run, splitLast, List.getLast?_eq_some_getLast hne, step, Option.getD_some]
    split
    · split
      · cases register ((base ++ path).getLast hne) locals seen <;> rfl
      · rfl
    · rfl

theorem resolveAll_run (ms : Modules) (locals : List Nat) (base : Path) (ts : List UseTree) (ht : AllWritten ts)
    (st : List Nat × Uses) : resolveAll ms locals base ts st = run ms locals (plainAll base ts) st := by
  match ts with
  | [] => simp [resolveAll, plainAll, run]
  | t :: rest =>
    rw [AllWritten] at ht
    simp only [resolveAll, plainAll]
    rw [run_append, resolveOne_run ms locals base t ht.1 st]
    cases run ms locals (t.plain base) st with
    | error e => rfl
    | ok st => exact resolveAll_run ms locals base rest ht.2 st

end

theorem register_ok {x : Nat} {locals seen seen' : List Nat} :
    register x locals seen = .ok seen' ↔ x ∉ locals ∧ x ∉ seen ∧ seen' = x :: seen := by
  unfold register
  split
  · simp_all
  · split <;> simp_all [eq_comm]

theorem prefill_ok {locals : List Nat} {l : List (Nat × Path)} {seen seen' : List Nat} (hn : seen.Nodup) :
    prefill locals l seen = .ok seen' ↔
      (l.map (·.1) ++ seen).Nodup ∧ (∀ e ∈ l, e.1 ∉ locals) ∧ seen' = (l.map (·.1)).reverse ++ seen := by
  induction l generalizing seen with
  | nil => simp [prefill, hn, eq_comm]
  | cons e l ih =>
    obtain ⟨x, p⟩ := e
    simp only [prefill]
    cases hr : register x locals seen with
    | error e =>
      simp only [reduceCtorEq, false_iff]
      rintro ⟨h1, h2, -⟩
      have : register x locals seen = .ok (x :: seen) := by
        rw [register_ok]
        refine ⟨h2 (x, p) (by simp), ?_, rfl⟩
        simp only [List.map_cons, List.cons_append, List.nodup_cons, List.mem_append, not_or] at h1
        exact h1.1.2
      rw [this] at hr
      simp at hr
    | ok s =>
      obtain ⟨h1, h2, rfl⟩ := register_ok.mp hr
      simp only
      rw [ih (List.nodup_cons.mpr ⟨h2, hn⟩)]
      have : (l.map (·.1) ++ x :: seen).Nodup ↔ (x :: (l.map (·.1) ++ seen)).Nodup :=
        (List.perm_middle).nodup_iff
      rw [this]
      simp [h1]

theorem run_ok {ms : Modules} (hs : Sane ms) {locals : List Nat} {imps : List Plain} {seen seen' : List Nat} {u u' : Uses}
    (hn : seen.Nodup) :
    run ms locals imps (seen, u) = .ok (seen', u') ↔
      ((∀ p ∈ wildcardOf imps, ∃ e, (p, e) ∈ ms)
        ∧ (∀ x p, (x, p) ∈ explicitOf imps → ∃ m d, At ms p m ∧ (x, d) ∈ m.defs ∧ d.pub = true)
        ∧ ((explicitOf imps).map (·.1) ++ seen).Nodup
        ∧ (∀ e ∈ explicitOf imps, e.1 ∉ locals))
      ∧ seen' = ((explicitOf imps).map (·.1)).reverse ++ seen
      ∧ u' = ⟨(explicitOf imps).reverse ++ u.explicits, u.wildcards ++ wildcardOf imps⟩ := by
  induction imps generalizing seen u with
  | nil =>
    simp only [run, wildcardOf, explicitOf, List.map_nil, List.nil_append, List.reverse_nil, List.append_nil, hn]
    constructor
    · intro h
      cases h
      exact ⟨⟨by simp, by simp, trivial, by simp⟩, rfl, rfl⟩
    · rintro ⟨-, rfl, rfl⟩
      rfl
  | cons i imps ih =>
    cases i with
    | all p =>
      simp only [run, step]
      by_cases hp : moduleExists ms p = true
      · rw [if_pos hp]
        simp only
        rw [ih hn]
        simp only [wildcardOf, explicitOf, List.mem_cons, forall_eq_or_imp, moduleExists_iff.mp hp, true_and,
          List.append_assoc, List.singleton_append]
      · rw [if_neg hp]
        constructor
        · intro h
          split at h
          · rename_i hx
            split at hx <;> simp at h
          · rename_i hx
            split at hx <;> simp at hx
        · rintro ⟨⟨h, -⟩, -⟩
          exact absurd (moduleExists_iff.mpr (h p (by simp [wildcardOf]))) hp
    | one p x =>
      simp only [run, step]
      by_cases hi : importExists ms p x = true
      · obtain ⟨m, d, hm, hd, hpub⟩ := (importExists_iff hs).mp hi
        rw [if_pos (moduleExists_iff.mpr ⟨_, hm⟩), if_pos hi]
        cases hr : register x locals seen with
        | error e =>
          simp only [reduceCtorEq, false_iff]
          rintro ⟨⟨-, -, h1, h2⟩, -⟩
          have : register x locals seen = .ok (x :: seen) := by
            rw [register_ok]
            refine ⟨h2 (x, p) (by simp [explicitOf]), ?_, rfl⟩
            simp only [explicitOf, List.map_cons, List.cons_append, List.nodup_cons, List.mem_append, not_or] at h1
            exact h1.1.2
          rw [this] at hr
          simp at hr
        | ok s =>
          obtain ⟨h1, h2, rfl⟩ := register_ok.mp hr
          simp only
          rw [ih (List.nodup_cons.mpr ⟨h2, hn⟩)]
          have hperm : ((explicitOf imps).map (·.1) ++ x :: seen).Nodup
              ↔ (x :: ((explicitOf imps).map (·.1) ++ seen)).Nodup := (List.perm_middle).nodup_iff
          rw [hperm]
          simp only [wildcardOf, explicitOf, List.mem_cons, forall_eq_or_imp, List.map_cons, List.reverse_cons,
            List.append_assoc, List.cons_append, List.nil_append, h1, not_false_eq_true, true_and]
          constructor
          · rintro ⟨⟨a, b, c, e⟩, f, g⟩
            refine ⟨⟨a, ?_, c, e⟩, f, g⟩
            intro y q hyq
            rcases hyq with hyq | hyq
            · obtain ⟨rfl, rfl⟩ := Prod.mk.inj hyq
              exact ⟨m, d, hm, hd, hpub⟩
            · exact b y q hyq
          · rintro ⟨⟨a, b, c, e⟩, f, g⟩
            exact ⟨⟨a, fun y q h => b y q (.inr h), c, e⟩, f, g⟩
      · constructor
        · intro h
          split at h
          · simp at h
          · rename_i hx
            split at hx <;> simp_all
        · rintro ⟨⟨-, h, -⟩, -⟩
          exact absurd ((importExists_iff hs).mpr (h x p (by simp [explicitOf]))) hi

end Ferlium.Import
