import Verif.Proofs.SessionCompile
import Mathlib.Tactic

/-! The cascade of recompilations. -/
namespace Ferlium.Session

variable {T U : Type}

theorem Inv.mono {sources : List T} {P Q : Nat → Prop} {mods : List (Entry T U)} (h : Inv sources P mods)
    (hpq : ∀ x, P x → Q x) : Inv sources Q mods where
  range := h.range
  srcs := h.srcs
  acyclic := h.acyclic
  safe := h.safe
  live x e h1 h2 h3 h4 h5 := hpq x (h.live x e h1 h2 h3 h4 h5)
  seen x e h1 h2 d h3 ed h4 h5 := (h.seen x e h1 h2 d h3 ed h4 h5).imp id (hpq x)

theorem Inv.sources {sources : List T} {P : Nat → Prop} {mods : List (Entry T U)} (h : Inv sources P mods) (l : List T) :
    Inv (sources ++ l) P mods where
  range := h.range
  srcs x e src h1 h2 := by rw [List.length_append]; exact Nat.lt_add_right _ (h.srcs x e src h1 h2)
  acyclic := h.acyclic
  safe x e h1 h2 := (h.safe x e h1 h2).congr
    (fun i t hi => by rw [List.getElem?_append_left (List.getElem?_eq_some_iff.1 hi).1]; exact hi)
    (fun d _ ed hed hs => ⟨ed, hed, hs, rfl⟩)
  live := h.live
  seen := h.seen

/-- The entry with its imports taken. -/
def strip [Inhabited U] (e : Entry T U) : Entry T U := { e with src := e.src.map fun s => { s with uses := default } }

theorem Inv.strip [Inhabited U] {sources : List T} {P : Nat → Prop} {mods mods' : List (Entry T U)} (h : Inv sources P mods)
    (q : Nat → Prop) [DecidablePred q] (hlen : mods'.length = mods.length)
    (hg : ∀ x : Nat, mods'[x]? = (mods[x]?).map (fun e => if q x then Session.strip e else e))
    (hq : ∀ (x : Nat) (e : Entry T U), mods[x]? = some e → q x → e.stale = true) : Inv sources P mods' := by
  have orig : ∀ (x : Nat) (e' : Entry T U), mods'[x]? = some e' → ∃ e, mods[x]? = some e ∧ e'.deps = e.deps ∧
      e'.src.isSome = e.src.isSome ∧ e'.failed = e.failed ∧ e'.seen = e.seen ∧ e'.stale = e.stale ∧ e'.revision = e.revision ∧
      (∀ s', e'.src = some s' → ∃ s, e.src = some s ∧ s'.sourceId = s.sourceId) ∧ (e.stale = false → e' = e) := by
    intro x e' he'
    rw [hg] at he'
    cases hx : mods[x]? with
    | none => simp [hx] at he'
    | some e =>
      simp only [hx, Option.map_some, Option.some.injEq] at he'
      subst he'
      refine ⟨e, rfl, ?_⟩
      by_cases hqx : q x
      · simp only [hqx, if_true, Session.strip]
        refine ⟨trivial, by simp, trivial, trivial, trivial, trivial, ?_, ?_⟩
        · intro s' hs'
          cases hs : e.src with
          | none => simp [hs] at hs'
          | some s => simp [hs] at hs'; exact ⟨s, rfl, by rw [← hs']⟩
        · intro hc
          rw [hq x e hx hqx] at hc; simp at hc
      · simp only [hqx, if_false]
        exact ⟨trivial, trivial, trivial, trivial, trivial, trivial, fun s hs => ⟨s, hs, rfl⟩, fun _ => trivial⟩
  have fresh' : ∀ d, FreshAt mods' d ↔ FreshAt mods d := by
    intro d
    simp only [FreshAt, hg]
    cases mods[d]? with
    | none => simp
    | some e =>
      by_cases hqx : q d
      · simp [hqx, Session.strip]
      · simp [hqx]
  have hdep : DepR mods' = DepR mods := by
    funext x y
    simp only [DepR, hg, eq_iff_iff]
    cases mods[x]? with
    | none => simp
    | some e =>
      by_cases hqx : q x
      · simp [hqx, Session.strip]
      · simp [hqx]
  constructor
  · intro x e' he' d hd
    obtain ⟨e, h1, h2, -⟩ := orig x e' he'
    rw [hlen]
    exact h.range x e h1 d (h2 ▸ hd)
  · intro x e' src he' hs
    obtain ⟨e, h1, -, -, -, -, -, -, h2, -⟩ := orig x e' he'
    obtain ⟨s, h3, h4⟩ := h2 src hs
    rw [h4]
    exact h.srcs x e s h1 h3
  · rw [hdep]; exact h.acyclic
  · intro x e' he' hs
    obtain ⟨e, h1, -, -, -, -, h2, -, -, h3⟩ := orig x e' he'
    have := h3 (h2 ▸ hs)
    subst this
    refine (h.safe x e' h1 hs).congr (fun _ _ h => h) ?_
    intro d hd ed hed heds
    have : mods'[d]? = some (if q d then Session.strip ed else ed) := by rw [hg, hed]; rfl
    obtain ⟨ed', g1, -, -, -, -, g2, g3, -⟩ := orig d _ this
    rw [hed] at g1; cases g1
    exact ⟨_, this, by rw [g2]; exact heds, g3⟩
  · intro x e' he' hs hsrc hf hd
    obtain ⟨e, h1, h2, h3, h4, h5, h6, -⟩ := orig x e' he'
    exact h.live x e h1 (h6 ▸ hs) (h3 ▸ hsrc) (h4 ▸ hf) (fun d hdm => (fresh' d).1 (hd d (h2 ▸ hdm)))
  · intro x e' he' hsrc d hd ed hed heds
    obtain ⟨e, h1, h2, h3, h4, h5, -⟩ := orig x e' he'
    obtain ⟨ed0, g1, -, -, -, -, g2, g3, -⟩ := orig d ed hed
    rw [h5, g3]
    exact h.seen x e h1 (h3 ▸ hsrc) d (h2 ▸ hd) ed0 g1 (g2 ▸ heds)

/-- State of the loop that takes the jobs, after the dependents in `pre`. -/
structure Taken [Inhabited U] (mods : List (Entry T U)) (pre : List Nat) (s : List (Entry T U) × List (Job U)) : Prop where
  get : ∀ x : Nat, s.1[x]? = (mods[x]?).map (fun e => if x ∈ s.2.map Job.id then strip e else e)
  jobs : ∀ j ∈ s.2, ∃ e : Entry T U, mods[j.id]? = some e ∧ e.stale = true ∧ e.src = some ⟨j.sourceId, j.version, j.uses⟩
  nodup : (s.2.map Job.id).Nodup
  sub : ∀ x ∈ s.2.map Job.id, x ∈ pre
  all : ∀ x ∈ pre, ∀ e : Entry T U, mods[x]? = some e → e.stale = true → e.src.isSome = true → x ∈ s.2.map Job.id

theorem takeJob_spec [Inhabited U] {mods : List (Entry T U)} {pre : List Nat} {s : List (Entry T U) × List (Job U)}
    (h : Taken mods pre s) {d : Nat} (hd : d ∉ pre) : Taken mods (pre ++ [d]) (takeJob s d) := by
  have hdn : d ∉ s.2.map Job.id := fun hc => hd (h.sub d hc)
  have hgd : s.1[d]? = mods[d]? := by
    rw [h.get d]
    cases mods[d]? <;> simp [hdn]
  have same : (∀ e : Entry T U, mods[d]? = some e → ¬ (e.stale = true ∧ e.src.isSome = true)) → Taken mods (pre ++ [d]) s := by
    intro hno
    refine ⟨h.get, h.jobs, h.nodup, fun x hx => List.mem_append_left _ (h.sub x hx), ?_⟩
    intro x hx e he h1 h2
    rcases List.mem_append.1 hx with hx | hx
    · exact h.all x hx e he h1 h2
    · simp only [List.mem_singleton] at hx
      subst hx
      exact absurd ⟨h1, h2⟩ (hno e he)
  unfold takeJob
  rw [hgd]
  cases he : mods[d]? with
  | none => exact same (by simp [he])
  | some e =>
    simp only
    by_cases hst : e.stale = true
    · rw [if_pos hst]
      cases hsrc : e.src with
      | none => exact same (by intro e' he'; rw [he] at he'; cases he'; simp [hsrc])
      | some src =>
        simp only
        have hdl : d < s.1.length := by
          have : s.1[d]? = some e := by rw [hgd, he]
          exact (List.getElem?_eq_some_iff.1 this).1
        refine ⟨?_, ?_, ?_, ?_, ?_⟩
        · intro x
          simp only [List.map_append, List.map_cons, List.map_nil, List.mem_append, List.mem_singleton]
          by_cases hx : x = d
          · subst hx
            rw [List.getElem?_set_self hdl, he]
            simp [strip, hsrc]
          · rw [List.getElem?_set_ne (Ne.symm hx), h.get x]
            simp [hx]
        · intro j hj
          rcases List.mem_append.1 hj with hj | hj
          · exact h.jobs j hj
          · simp only [List.mem_singleton] at hj
            subst hj
            exact ⟨e, he, hst, hsrc⟩
        · simp only [List.map_append, List.map_cons, List.map_nil]
          rw [List.nodup_append]
          refine ⟨h.nodup, by simp, ?_⟩
          intro a ha b hb hab
          simp only [List.mem_singleton] at hb
          subst hb; subst hab
          exact hdn ha
        · intro x hx
          simp only [List.map_append, List.map_cons, List.map_nil, List.mem_append, List.mem_singleton] at hx ⊢
          exact hx.imp (h.sub x) id
        · intro x hx e' he' h1 h2
          simp only [List.map_append, List.map_cons, List.map_nil, List.mem_append, List.mem_singleton] at hx ⊢
          rcases hx with hx | hx
          · exact Or.inl (h.all x hx e' he' h1 h2)
          · exact Or.inr hx
    · rw [if_neg hst]
      exact same (by intro e' he'; rw [he] at he'; cases he'; simp [hst])

theorem takeFold_spec [Inhabited U] {mods : List (Entry T U)} (l : List Nat) : ∀ (pre : List Nat) (s : List (Entry T U) × List (Job U)),
    (pre ++ l).Nodup → Taken mods pre s → Taken mods (pre ++ l) (l.foldl takeJob s) := by
  induction l with
  | nil => intro pre s _ h; simpa using h
  | cons d l ih =>
    intro pre s hn h
    rw [List.foldl_cons]
    have hd : d ∉ pre := by
      rw [List.nodup_append] at hn
      intro hc
      exact hn.2.2 d hc d (by simp) rfl
    have := ih (pre ++ [d]) (takeJob s d) (by simpa using hn) (takeJob_spec h hd)
    simpa using this

theorem staleDependents_spec [Inhabited U] (mods : List (Entry T U)) (m : Nat) :
    Taken mods (directDeps mods m) (staleDependents mods m) := by
  have := takeFold_spec (mods := mods) (directDeps mods m) [] (mods, []) (by simpa using directDeps_nodup mods m)
    ⟨fun x => by cases mods[x]? <;> simp, by simp, by simp, by simp, by simp⟩
  rw [List.nil_append] at this
  exact this

theorem waiting_iff [Inhabited U] (mods : List (Entry T U)) (m x : Nat) :
    Waiting mods m x ↔ x ∈ (staleDependents mods m).2.map Job.id := by
  have h := staleDependents_spec mods m
  constructor
  · rintro ⟨e, h1, h2, h3, h4⟩
    exact h.all x (mem_directDeps.2 ⟨e, h1, h2⟩) e h1 h3 h4
  · intro hx
    obtain ⟨j, hj, rfl⟩ := List.mem_map.1 hx
    obtain ⟨e, h1, h2, h3⟩ := h.jobs j hj
    obtain ⟨e', h4, h5⟩ := mem_directDeps.1 (h.sub _ hx)
    rw [h1] at h4; cases h4
    exact ⟨e, h1, h5, h2, by simp [h3]⟩

/-- The relation between the registry before and after a compilation of `m` with its cascade. -/
structure Steps (m : Nat) (src : SrcInfo U) (mods mods' : List (Entry T U)) : Prop where
  len : mods'.length = max mods.length (m + 1)
  others : ∀ (x : Nat) (e : Entry T U), x ≠ m → mods[x]? = some e → ∃ e', mods'[x]? = some e' ∧ e'.src = e.src ∧ e.attempt ≤ e'.attempt
  self : ∃ em : Entry T U, mods'[m]? = some em ∧ em.src = some src ∧ ∀ e : Entry T U, mods[m]? = some e → e.attempt + 1 ≤ em.attempt

theorem compile_spec [Inhabited U] {emit : T → U → List (Option (Rev T U)) → Nat → Option (List Nat)}
    (hemit : ∀ t u v i deps, emit t u v i = some deps → ∀ d ∈ deps, d < v.length) {sources : List T} :
    ∀ (fuel : Nat) {P : Nat → Prop} {mods : List (Entry T U)} (_ : Inv sources P mods) {target : Option Nat}
    (_ : ∀ id, target = some id → id < mods.length) {sourceId : Nat} (_ : sourceId < sources.length) (version : Nat) (uses : U),
    compile emit sources fuel mods target sourceId version uses ≠ .error .panic ∧
    ∀ mods', compile emit sources fuel mods target sourceId version uses = .ok mods' →
      Inv sources (fun x => P x ∧ x ≠ target.getD mods.length) mods' ∧
      Steps (target.getD mods.length) ⟨sourceId, version, uses⟩ mods mods' := by
  intro fuel
  induction fuel with
  | zero =>
    intro P mods h target ht sourceId hs version uses
    simp [compile]
  | succ fuel ih =>
    intro P mods h target ht sourceId hs version uses
    obtain ⟨modsA, b, h1, h2, h3⟩ := compileOne_spec hemit h ht hs version uses
    have hm : target.getD mods.length ≤ mods.length := by
      cases target with
      | none => simp
      | some id => exact le_of_lt (ht id rfl)
    generalize target.getD mods.length = m at h1 h2 h3 hm ⊢
    unfold compile
    rw [h1]
    cases b with
    | false =>
      show (Except.ok modsA : Run _) ≠ _ ∧ ∀ mods', (Except.ok modsA : Run _) = .ok mods' → _
      refine ⟨by simp, ?_⟩
      rintro mods' heq
      cases heq
      refine ⟨h2.mono (by intro x; simp), h3.len, ?_, ?_⟩
      · intro x e hx he
        have := h3.others x hx
        rw [he] at this
        simp only [Option.map_some, Option.map_eq_some_iff] at this
        obtain ⟨e', g1, g2⟩ := this
        simp only [info, Prod.mk.injEq] at g2
        exact ⟨e', g1, g2.1, by rw [g2.2.1]⟩
      · obtain ⟨em, g1, g2, g3⟩ := h3.self
        exact ⟨em, g1, g2, fun e he => by rw [g3 e he]⟩
    | true =>
      have htk := staleDependents_spec modsA m
      have hw := waiting_iff modsA m
      rcases hsd : staleDependents modsA m with ⟨modsB, jobs⟩
      rw [hsd] at htk
      simp only [hsd] at hw
      show (List.foldlM (fun mods job => compile emit sources fuel mods (some job.id) job.sourceId job.version job.uses)
          (staleDependents modsA m).1 (staleDependents modsA m).2 : Run _) ≠ _ ∧
        ∀ mods', (List.foldlM (fun mods job => compile emit sources fuel mods (some job.id) job.sourceId job.version job.uses)
          (staleDependents modsA m).1 (staleDependents modsA m).2 : Run _) = .ok mods' → _
      rw [hsd]
      have hlenB : modsB.length = modsA.length := by
        have hB : ∀ x : Nat, modsB[x]? = none ↔ modsA[x]? = none := by
          intro x
          rw [htk.get x]
          simp
        have h5 := hB modsA.length
        have h6 := hB modsB.length
        simp only [List.getElem?_eq_none_iff] at h5 h6
        have h7 := h5.2 (le_refl _)
        have h8 := h6.1 (le_refl _)
        omega
      have hInvB : Inv sources (fun x => (P x ∧ x ≠ m) ∨ x ∈ jobs.map Job.id) modsB := by
        refine Inv.strip (h2.mono ?_) (fun x => x ∈ jobs.map Job.id) hlenB htk.get ?_
        · intro x hx
          rcases hx with hx | ⟨-, hx⟩
          · exact Or.inl hx
          · exact Or.inr ((hw x).1 hx)
        · intro x e he hx
          obtain ⟨j, hj, rfl⟩ := List.mem_map.1 hx
          obtain ⟨e', h1, h2, h3⟩ := htk.jobs j hj
          rw [he] at h1; cases h1
          exact h2
      have hmA : m < modsA.length := by rw [h3.len]; omega
      -- the loop over the jobs
      have loop : ∀ (rest : List (Job U)) (modsC : List (Entry T U)), (∀ j ∈ rest, j ∈ jobs) → (rest.map Job.id).Nodup →
          modsC.length = modsA.length →
          Inv sources (fun x => (P x ∧ x ≠ m) ∨ x ∈ rest.map Job.id) modsC →
          (∀ (x : Nat) (e : Entry T U), modsA[x]? = some e → ∃ e', modsC[x]? = some e' ∧ e.attempt ≤ e'.attempt ∧
            (if x ∈ rest.map Job.id then e'.src.isSome = true else e'.src = e.src)) →
          (List.foldlM (fun mods job => compile emit sources fuel mods (some job.id) job.sourceId job.version job.uses)
            modsC rest : Run _) ≠ .error .panic ∧
          ∀ mods', (List.foldlM (fun mods job => compile emit sources fuel mods (some job.id) job.sourceId job.version job.uses)
            modsC rest : Run _) = .ok mods' →
            Inv sources (fun x => P x ∧ x ≠ m) mods' ∧ mods'.length = modsA.length ∧
            ∀ (x : Nat) (e : Entry T U), modsA[x]? = some e → ∃ e', mods'[x]? = some e' ∧ e.attempt ≤ e'.attempt ∧ e'.src = e.src := by
        intro rest
        induction rest with
        | nil =>
          intro modsC _ _ hl hi hx
          show (Except.ok modsC : Run _) ≠ _ ∧ ∀ mods', (Except.ok modsC : Run _) = .ok mods' → _
          refine ⟨by simp, ?_⟩
          intro mods' heq
          cases heq
          exact ⟨by simpa using hi, hl, by simpa using hx⟩
        | cons j rest ihr =>
          intro modsC hsub hnd hl hi hx
          obtain ⟨ej, g1, g2, g3⟩ := htk.jobs j (hsub j (by simp))
          have hjlt : j.id < modsC.length := by rw [hl]; exact (List.getElem?_eq_some_iff.1 g1).1
          have hjs : j.sourceId < sources.length := h2.srcs j.id ej _ g1 g3
          obtain ⟨k1, k2⟩ := ih hi (target := some j.id) (by intro id hid; cases hid; exact hjlt) hjs j.version j.uses
          rw [List.foldlM_cons]
          cases hc : compile emit sources fuel modsC (some j.id) j.sourceId j.version j.uses with
          | error f =>
            rw [hc] at k1
            refine ⟨?_, by intro mods' hcon; cases hcon⟩
            intro hcon
            apply k1
            cases hcon; rfl
          | ok modsD =>
            obtain ⟨k3, k4⟩ := k2 modsD hc
            simp only [Option.getD_some] at k3 k4
            rw [List.map_cons, List.nodup_cons] at hnd
            refine ihr modsD (fun j' hj' => hsub j' (by simp [hj'])) hnd.2 (by rw [k4.len]; omega) (k3.mono ?_) ?_
            · rintro x ⟨hx1, hx2⟩
              rcases hx1 with hx1 | hx1
              · exact Or.inl hx1
              · rw [List.map_cons, List.mem_cons] at hx1
                rcases hx1 with hx1 | hx1
                · exact absurd hx1 hx2
                · exact Or.inr hx1
            · intro x e he
              obtain ⟨e', m1, m2, m3⟩ := hx x e he
              by_cases hxj : x = j.id
              · subst hxj
                rw [g1] at he; cases he
                obtain ⟨em, n1, n2, n3⟩ := k4.self
                have := n3 e' m1
                refine ⟨em, n1, by omega, ?_⟩
                rw [if_neg hnd.1, n2, g3]
              · obtain ⟨e2, n1, n2, n3⟩ := k4.others x e' hxj m1
                refine ⟨e2, n1, by omega, ?_⟩
                rw [n2]
                simpa [hxj] using m3
      obtain ⟨l1, l2⟩ := loop jobs modsB (fun _ h => h) htk.nodup hlenB hInvB (by
        intro x e he
        refine ⟨_, by rw [htk.get x, he]; rfl, ?_, ?_⟩
        · split <;> simp [Session.strip]
        · split
          · rename_i hx
            obtain ⟨j, hj, rfl⟩ := List.mem_map.1 hx
            obtain ⟨e', h1, h2, h3⟩ := htk.jobs j hj
            rw [he] at h1; cases h1
            simp [Session.strip, h3]
          · rfl)
      refine ⟨l1, ?_⟩
      intro mods' heq
      obtain ⟨l3, l4, l5⟩ := l2 mods' heq
      refine ⟨l3, by rw [l4, h3.len], ?_, ?_⟩
      · intro x e hx he
        have := h3.others x hx
        rw [he] at this
        simp only [Option.map_some, Option.map_eq_some_iff] at this
        obtain ⟨e', g1, g2⟩ := this
        simp only [info, Prod.mk.injEq] at g2
        obtain ⟨e2, g3, g4, g5⟩ := l5 x e' g1
        exact ⟨e2, g3, by rw [g5, g2.1], by rw [← g2.2.1]; exact g4⟩
      · obtain ⟨em, g1, g2, g3⟩ := h3.self
        obtain ⟨e2, g4, g5, g6⟩ := l5 m em g1
        refine ⟨e2, g4, by rw [g6, g2], ?_⟩
        intro e he
        rw [← g3 e he]; exact g5

end Ferlium.Session
