import Verif.Proofs.SessionInv
import Mathlib.Tactic

/-! One compilation, and the cascade it starts, preserve the invariant of the registry. -/
namespace Ferlium.Session

open Ferlium.Graph (Gr findCycleFrom Edge Reach WF IsCycle isCycle_trans C24_cycle_search_exact)

variable {T U : Type}

theorem cycleGraph_get (mods : List (Entry T U)) (id : Nat) (deps : List Nat) (old : Bool) (u : Nat) :
    (cycleGraph mods id deps old)[u]? = if u < mods.length then (mods[u]?).map (fun e => if u = id then deps else e.deps)
      else if u = mods.length ∧ old = false then some deps else none := by
  unfold cycleGraph
  by_cases hu : u < mods.length
  · rw [if_pos hu, List.getElem?_append_left (by simpa using hu)]
    simp only [List.getElem?_map, List.getElem?_zipIdx, Option.map_map]
    cases mods[u]? <;> simp
  · rw [if_neg hu, List.getElem?_append_right (by simp; omega)]
    cases old
    · by_cases hu' : u = mods.length
      · subst hu'; simp
      · rw [if_neg (show ¬ (u = mods.length ∧ false = false) by tauto), List.getElem?_eq_none_iff]
        simp; omega
    · simp

theorem cycle_check {sources : List T} {P : Nat → Prop} {mods : List (Entry T U)} {m : Nat} (h : Open sources P m mods)
    (hm : m ≤ mods.length) {deps : List Nat} (hr : ∀ d ∈ deps, d < mods.length) {old : Bool}
    (hold : old = true → m < mods.length) :
    ∃ r, findCycleFrom (cycleGraph mods m deps old) m = some r ∧
      (r = none → ∀ e : Entry T U, e.deps = deps → ¬ Relation.TransGen (DepR (put mods m e)) m m) ∧
      (∀ c, r = some c → m < mods.length ∧ ∀ v ∈ c, v < mods.length) := by
  set g := cycleGraph mods m deps old with hg
  have htarget : ∀ u v, Edge g u v → v < mods.length := by
    rintro u v ⟨l, h1, h2⟩
    rw [hg, cycleGraph_get] at h1
    split at h1
    · cases hu : mods[u]? with
      | none => simp [hu] at h1
      | some e =>
        simp only [hu, Option.map_some, Option.some.injEq] at h1
        subst h1
        split at h2
        · exact hr v h2
        · exact h.range u e hu v h2
    · split at h1
      · cases h1; exact hr v h2
      · simp at h1
  have hlen : mods.length ≤ g.length ∧ m < g.length := by
    have hl : g.length = mods.length + (if old then 0 else 1) := by
      rw [hg, cycleGraph]; cases old <;> simp
    rw [hl]
    cases old
    · simp; omega
    · simp; exact hold rfl
  have hwf : WF g := fun u v huv => lt_of_lt_of_le (htarget u v huv) hlen.1
  obtain ⟨r, h1, h2, h3⟩ := C24_cycle_search_exact g hwf m hlen.2
  refine ⟨r, h1, ?_, ?_⟩
  · intro hr0 e he hcyc
    subst hr0
    simp only [Option.isSome_none, Bool.false_eq_true, false_iff, not_exists, not_and] at h3
    refine h3 m .refl (Relation.TransGen.mono ?_ _ _ hcyc)
    rintro u v ⟨e', h4, h5⟩
    refine ⟨e'.deps, ?_, h5⟩
    rw [hg, cycleGraph_get]
    by_cases hu : u = m
    · subst hu
      rw [put_self hm] at h4; cases h4
      by_cases hul : u < mods.length
      · rw [if_pos hul, List.getElem?_eq_getElem hul]; simp [he]
      · have hul' : u = mods.length := by omega
        rw [if_neg hul, if_pos ⟨hul', by
          cases old
          · rfl
          · exact absurd (hold rfl) hul⟩, he]
    · rw [put_ne hm e hu] at h4
      rw [if_pos (List.getElem?_eq_some_iff.1 h4).1, h4]
      simp [hu]
  · intro c hc
    obtain ⟨h4, h5⟩ := h2 c hc
    have hml : m < mods.length := by
      by_contra hml
      have hml' : m = mods.length := by omega
      obtain ⟨v, hv, hcyc⟩ := isCycle_trans h4
      have hvl : v < mods.length := by
        obtain ⟨w, -, hw⟩ := Relation.TransGen.tail'_iff.1 hcyc
        exact htarget _ _ hw
      have key : ∀ w, Relation.TransGen (Edge g) v w → Relation.TransGen (DepR mods) v w := by
        have step : ∀ a b, a < mods.length → Edge g a b → DepR mods a b := by
          rintro a b ha ⟨l, h6, h7⟩
          rw [hg, cycleGraph_get, if_pos ha] at h6
          cases hga : mods[a]? with
          | none => simp [hga] at h6
          | some e =>
            simp only [hga, Option.map_some, Option.some.injEq] at h6
            rw [if_neg (by omega)] at h6
            subst h6
            exact ⟨e, hga, h7⟩
        intro w hw
        induction hw with
        | single h => exact .single (step _ _ hvl h)
        | @tail b c hab hbc ih =>
          refine .tail ih (step _ _ ?_ hbc)
          obtain ⟨w', -, hw'⟩ := Relation.TransGen.tail'_iff.1 hab
          exact htarget _ _ hw'
      exact h.acyclic v (key v hcyc)
    refine ⟨hml, ?_⟩
    intro v hv
    rcases Relation.ReflTransGen.cases_tail (h5 v hv) with heq | ⟨w, -, hw⟩
    · rw [heq]; exact hml
    · exact htarget _ _ hw

/-- What a compilation of another module leaves alone in an entry. -/
def info (e : Entry T U) : Option (SrcInfo U) × Nat × List Nat := (e.src, e.attempt, e.deps)

theorem open_spec {sources : List T} {P : Nat → Prop} {mods : List (Entry T U)} (h : Inv sources P mods)
    {target : Option Nat} (ht : ∀ id, target = some id → id < mods.length) :
    ∃ old att mods1 mods2, openEntry mods target = .ok (target.getD mods.length, old, att, mods1) ∧
      (if old.isSome then must (markStale mods1 [target.getD mods.length]) else pure mods1) = Except.ok mods2 ∧
      Open sources P (target.getD mods.length) mods2 ∧ mods2.length = mods.length ∧
      (old.isSome = true → target.getD mods.length < mods.length) ∧
      (∀ x, x ≠ target.getD mods.length → (mods2[x]?).map info = (mods[x]?).map info) ∧
      (∀ e, mods[target.getD mods.length]? = some e → att = e.attempt + 1) := by
  cases target with
  | none =>
    refine ⟨none, 0, mods, mods, rfl, rfl, open_new h, rfl, by simp, fun _ _ => rfl, ?_⟩
    intro e he
    simp at he
  | some id =>
    have hlt := ht id rfl
    obtain ⟨e, he⟩ : ∃ e, mods[id]? = some e := ⟨_, List.getElem?_eq_getElem hlt⟩
    simp only [Option.getD_some]
    have hoe : openEntry mods (some id) = .ok (id, e.revision, e.attempt + 1, mods.set id { e with revision := some .placeholder }) := by
      simp [openEntry, he]
    cases hrev : e.revision with
    | none =>
      refine ⟨none, e.attempt + 1, _, mods.set id { e with revision := some .placeholder }, by rw [hoe, hrev], rfl,
        open_stale h he hrev _, by simp, by simp, ?_, ?_⟩
      · intro x hx; rw [List.getElem?_set_ne (Ne.symm hx)]
      · intro e' he'; rw [he] at he'; cases he'; rfl
    | some rv =>
      obtain ⟨p, h1, h2⟩ := open_mark h he (some .placeholder)
      refine ⟨some rv, e.attempt + 1, mods.set id { e with revision := some .placeholder }, _, by rw [hoe, hrev],
        by simp only [Option.isSome_some, if_true, h1, must], h2, by simp [setStale_length], fun _ => hlt, ?_, ?_⟩
      · intro x hx
        rw [setStale_get, List.getElem?_set_ne (Ne.symm hx)]
        cases mods[x]? <;> simp [info]
      · intro e' he'; rw [he] at he'; cases he'; rfl

theorem mapM_must {mods : List (Entry T U)} : ∀ (deps : List Nat), (∀ d ∈ deps, d < mods.length) →
    ∃ l, deps.mapM (fun d => must mods[d]?) = (Except.ok l : Run (List (Entry T U))) ∧
      (l.any Entry.stale = true ↔ ∃ d ∈ deps, ¬ FreshAt mods d) := by
  intro deps
  induction deps with
  | nil => intro _; exact ⟨[], rfl, by simp⟩
  | cons d deps ih =>
    intro hd
    obtain ⟨l, h1, h2⟩ := ih (fun x hx => hd x (by simp [hx]))
    obtain ⟨e, he⟩ : ∃ e, mods[d]? = some e := ⟨_, List.getElem?_eq_getElem (hd d (by simp))⟩
    refine ⟨e :: l, ?_, ?_⟩
    · rw [List.mapM_cons, h1, he]; rfl
    · simp only [List.any_cons, Bool.or_eq_true, h2, List.mem_cons, exists_eq_or_imp]
      have : e.stale = true ↔ ¬ FreshAt mods d := by
        simp only [FreshAt, he, Option.some.injEq, exists_eq_left']
        simp
      rw [this]

theorem noop_after_put {sources : List T} {P : Nat → Prop} {mods : List (Entry T U)} {m : Nat} (h : Open sources P m mods)
    (hm : m < mods.length) {e0 : Entry T U} (hst : e0.stale = true) :
    markStale (mods.set m e0) [m] = some (put mods m e0) := by
  have hput : put mods m e0 = mods.set m e0 := by simp [put, hm]
  rw [← hput]
  refine markStale_noop ?_
  intro x e hg hme
  by_cases hx : x = m
  · subst hx; rw [put_self (le_of_lt hm)] at hg; cases hg; exact hst
  · rw [put_ne (le_of_lt hm) e0 hx] at hg
    by_contra hc
    exact (h.safe x e hx hg (by simpa using hc)).2 hme

theorem failed_spec {sources : List T} {P : Nat → Prop} {mods : List (Entry T U)} {m : Nat} (h : Open sources P m mods)
    (hm : m ≤ mods.length) (src : SrcInfo U) (hs : src.sourceId < sources.length) (old : Option (Rev T U)) (att : Nat) :
    ∃ e0 : Entry T U, failed mods m src old att (view mods) = .ok (put mods m e0) ∧ e0.src = some src ∧ e0.attempt = att ∧
      Inv sources (fun x => P x ∧ x ≠ m) (put mods m e0) := by
  by_cases hml : m < mods.length
  · obtain ⟨e, he⟩ : ∃ e, mods[m]? = some e := ⟨_, List.getElem?_eq_getElem hml⟩
    refine ⟨{ e with src := some src, revision := old, failed := true, attempt := att, stale := true, seen := view mods }, ?_,
      rfl, rfl, ?_⟩
    · unfold failed
      rw [he]
      simp only
      rw [noop_after_put h hml rfl]; rfl
    · refine store_stale h hm rfl hs (fun d hd => h.range m e he d hd) ?_ rfl rfl (Or.inl rfl)
      have : put mods m { e with src := some src, revision := old, failed := true, attempt := att, stale := true, seen := view mods }
          = mods.set m { e with src := some src, revision := old, failed := true, attempt := att, stale := true, seen := view mods } := by
        simp [put, hml]
      rw [this, depR_set_same (e' := { e with src := some src, revision := old, failed := true, attempt := att, stale := true, seen := view mods }) he rfl]
      exact h.acyclic m
  · refine ⟨⟨some src, none, true, [], att, true, view mods⟩, ?_, rfl, rfl, ?_⟩
    · unfold failed
      rw [List.getElem?_eq_none (by omega)]
      simp [put, hml]
    · refine store_stale h hm rfl hs (by simp) ?_ rfl rfl (Or.inl rfl)
      intro hc
      obtain ⟨w, hw, -⟩ := Relation.TransGen.head'_iff.1 hc
      obtain ⟨e, he, hd⟩ := hw
      rw [put_self hm] at he; cases he
      simp at hd

/-- The relation between the registry before and after one compilation of `m`. -/
structure Step (m : Nat) (src : SrcInfo U) (mods mods' : List (Entry T U)) : Prop where
  len : mods'.length = max mods.length (m + 1)
  others : ∀ x : Nat, x ≠ m → (mods'[x]?).map info = (mods[x]?).map info
  self : ∃ em : Entry T U, mods'[m]? = some em ∧ em.src = some src ∧ ∀ e : Entry T U, mods[m]? = some e → em.attempt = e.attempt + 1

theorem step_put {mods mods2 : List (Entry T U)} {m : Nat} (hm : m ≤ mods.length) (hl : mods2.length = mods.length)
    (ho : ∀ x : Nat, x ≠ m → (mods2[x]?).map info = (mods[x]?).map info) {src : SrcInfo U} {att : Nat}
    (hatt : ∀ e : Entry T U, mods[m]? = some e → att = e.attempt + 1) {e0 : Entry T U} (hs : e0.src = some src)
    (ha : e0.attempt = att) : Step m src mods (put mods2 m e0) := by
  refine ⟨by rw [put_length (by omega), hl], ?_, e0, put_self (by omega) e0, hs, ?_⟩
  · intro x hx; rw [put_ne (by omega) e0 hx]; exact ho x hx
  · intro e he; rw [ha]; exact hatt e he

theorem compileOne_spec {emit : T → U → List (Option (Rev T U)) → Nat → Option (List Nat)}
    (hemit : ∀ t u v i deps, emit t u v i = some deps → ∀ d ∈ deps, d < v.length)
    {sources : List T} {P : Nat → Prop} {mods : List (Entry T U)} (h : Inv sources P mods)
    {target : Option Nat} (ht : ∀ id, target = some id → id < mods.length) {sourceId : Nat} (hsrc : sourceId < sources.length)
    (version : Nat) (uses : U) :
    ∃ mods' b, compileOne emit sources mods target sourceId version uses = .ok (target.getD mods.length, mods', b) ∧
      Inv sources (fun x => (P x ∧ x ≠ target.getD mods.length) ∨ (b = true ∧ Waiting mods' (target.getD mods.length) x)) mods' ∧
      Step (target.getD mods.length) ⟨sourceId, version, uses⟩ mods mods' := by
  obtain ⟨old, att, mods1, mods2, h1, h2, h3, h4, h5, h6, h7⟩ := open_spec h ht
  have hm : target.getD mods.length ≤ mods.length := by
    cases target with
    | none => simp
    | some id => exact le_of_lt (ht id rfl)
  generalize target.getD mods.length = m at h1 h2 h3 h5 h6 h7 hm ⊢
  have hm2 : m ≤ mods2.length := by omega
  obtain ⟨text, htext⟩ : ∃ t, sources[sourceId]? = some t := ⟨_, List.getElem?_eq_getElem hsrc⟩
  have hopen : compileOne emit sources mods target sourceId version uses =
      (match emit text uses (view mods2) m with
      | none => do
        let mods ← failed mods2 m ⟨sourceId, version, uses⟩ old att (view mods2)
        pure (m, mods, false)
      | some deps => do
        match ← must (findCycleFrom (cycleGraph mods2 m deps old.isSome) m) with
        | some cycle =>
          if m < mods2.length ∧ ∀ v ∈ cycle, v < mods2.length then do
            let mods ← failed mods2 m ⟨sourceId, version, uses⟩ old att (view mods2)
            pure (m, mods, false)
          else throw .panic
        | none =>
          let depEntries ← deps.mapM (fun d => must mods2[d]?)
          if depEntries.any Entry.stale then do
            let mods ← storeStale mods2 m ⟨sourceId, version, uses⟩ old deps att (view mods2)
            pure (m, mods, false)
          else
            pure (m, storeFresh mods2 m ⟨sourceId, version, uses⟩ (.built text uses (against mods2 deps)) deps att (view mods2), true)) := by
    unfold compileOne
    rw [htext, h1]
    simp only [must, bind, Except.bind] at h2 ⊢
    split at h2
    · rename_i hc
      simp only [hc, if_true]
      rw [h2]
      rfl
    · rename_i hc
      simp only [hc, if_false, Bool.false_eq_true]
      rw [h2]
      rfl
  have hfail : ∃ mods' b, (do
        let mods ← failed mods2 m ⟨sourceId, version, uses⟩ old att (view mods2)
        pure (m, mods, false) : Run (Nat × Outcome T U)) = .ok (m, mods', b) ∧
      Inv sources (fun x => (P x ∧ x ≠ m) ∨ (b = true ∧ Waiting mods' m x)) mods' ∧
      Step m ⟨sourceId, version, uses⟩ mods mods' := by
    obtain ⟨e0, g1, g2, g3, g4⟩ := failed_spec h3 hm2 ⟨sourceId, version, uses⟩ hsrc old att
    refine ⟨put mods2 m e0, false, by rw [g1]; rfl, ?_, step_put hm h4 h6 h7 g2 g3⟩
    simpa using g4
  rw [hopen]
  cases hem : emit text uses (view mods2) m with
  | none => exact hfail
  | some deps =>
    have hr : ∀ d ∈ deps, d < mods2.length := by
      intro d hd
      have := hemit _ _ _ _ _ hem d hd
      simpa [view] using this
    obtain ⟨r, c1, c2, c3⟩ := cycle_check h3 hm2 hr (old := old.isSome) (fun ho => by rw [h4]; exact h5 ho)
    simp only [c1, must]
    cases r with
    | some c =>
      show ∃ mods' b, (if m < mods2.length ∧ ∀ v ∈ c, v < mods2.length then _ else _) = _ ∧ _
      rw [if_pos (c3 c rfl)]
      exact hfail
    | none =>
      have hcyc := c2 rfl
      obtain ⟨l, l1, l2⟩ := mapM_must deps hr
      show ∃ mods' b, (deps.mapM (fun d => must mods2[d]?) >>= fun depEntries => if depEntries.any Entry.stale then _ else _) = _ ∧ _
      rw [l1]
      show ∃ mods' b, (if l.any Entry.stale then _ else _) = _ ∧ _
      by_cases hany : l.any Entry.stale = true
      · rw [if_pos hany]
        obtain ⟨d, hd1, hd2⟩ := l2.1 hany
        by_cases hml : m < mods2.length
        · obtain ⟨em, hem'⟩ : ∃ e, mods2[m]? = some e := ⟨_, List.getElem?_eq_getElem hml⟩
          refine ⟨put mods2 m ⟨some ⟨sourceId, version, uses⟩, old, false, deps, att, true, view mods2⟩, false, ?_, ?_,
            step_put hm h4 h6 h7 rfl rfl⟩
          · unfold storeStale
            rw [hem']
            simp only
            rw [noop_after_put h3 hml rfl]; rfl
          · have := store_stale h3 hm2 (e0 := ⟨some ⟨sourceId, version, uses⟩, old, false, deps, att, true, view mods2⟩)
              rfl hsrc hr (hcyc _ rfl) rfl rfl (Or.inr ⟨d, hd1, hd2⟩)
            simpa using this
        · refine ⟨put mods2 m ⟨some ⟨sourceId, version, uses⟩, none, false, deps, att, true, view mods2⟩, false, ?_, ?_,
            step_put hm h4 h6 h7 rfl rfl⟩
          · unfold storeStale
            rw [List.getElem?_eq_none (by omega)]
            simp only [put, if_neg hml]; rfl
          · have := store_stale h3 hm2 (e0 := ⟨some ⟨sourceId, version, uses⟩, none, false, deps, att, true, view mods2⟩)
              rfl hsrc hr (hcyc _ rfl) rfl rfl (Or.inr ⟨d, hd1, hd2⟩)
            simpa using this
      · rw [if_neg hany]
        have hfr : ∀ d ∈ deps, FreshAt mods2 d := by
          intro d hd
          by_contra hc
          exact hany (l2.2 ⟨d, hd, hc⟩)
        have := store_fresh h3 hm2 (src := ⟨sourceId, version, uses⟩) htext (attempt := att) hr hcyc hfr
        refine ⟨put mods2 m ⟨some ⟨sourceId, version, uses⟩, some (.built text uses (against mods2 deps)), false, deps, att, false,
          view mods2⟩, true, ?_, ?_, step_put hm h4 h6 h7 rfl rfl⟩
        · rfl
        · simpa using this

end Ferlium.Session
