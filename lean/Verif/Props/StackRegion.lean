import Verif.Proofs.StackRegionSim
import Verif.Props.Cse

/-!
C77: removal of redundant stack markers (`src/mir/pass/stack_region.rs`).
-/
namespace Ferlium.StackRegion

open Ferlium.Mir Ferlium.Edit Ferlium.Dominance
open Ferlium.Negation (Site opAt opAt_some opAt_mem mem_sites sites blockSites Before safe_of_run inRange_of)
open Ferlium.Cse (OnRun DefsFirst Ordered defsFirst_of_sites)

variable {f : Body}

/-! ### Specification -/

/-- After the operations (the last one first) the marker is known to be the height of the stack: it was just saved or
restored, and since then nothing happened but operations which leave the stack as it is and restores of markers which are
known to be the height as well. -/
inductive Current : List Op → Nat → Prop
  | save {op : Op} {tr : List Op} {m : Nat} : op.kind = .stackSave → op.result = some m → Current (op :: tr) m
  | restore {op : Op} {tr : List Op} {m : Nat} : op.kind = .stackRestore → op.operands = [.register m] → Current (op :: tr) m
  | again {op : Op} {tr : List Op} {m n : Nat} : op.kind = .stackRestore → op.operands = [.register n] → Current tr n →
      Current tr m → Current (op :: tr) m
  | keep {op : Op} {tr : List Op} {m : Nat} : op.kind ≠ .stackRestore → ¬ Grows op → Current tr m → Current (op :: tr) m

/-- The operations along a path from the start of the body to a point, the last one first. -/
def PathTo (f : Body) (p : Site) (tr : List Op) : Prop :=
  ∃ blk tr0, f[p.block]? = some blk ∧ Trace f p.block tr0 ∧ tr = (blk.ops.take p.index).reverse ++ tr0

/-- The operation at a point is superfluous: a save where some marker is known to be the height of the stack on all paths,
or a restore of such a marker. -/
def Superfluous (f : Body) (p : Site) (op : Op) : Prop :=
  (op.kind = .stackSave ∧ op.result ≠ none ∧ ∃ m, ∀ tr, PathTo f p tr → Current tr m) ∨
  (op.kind = .stackRestore ∧ ∃ m, op.operands = [.register m] ∧ ∀ tr, PathTo f p tr → Current tr m)

/-! ### Which operations are removed -/

/-- Restores take one register. -/
def RestoresOk (ops : List Op) : Prop := ∀ op ∈ ops, op.kind = .stackRestore → ∃ m, op.operands = [.register m]

theorem grows_save {op : Op} (h : op.kind = .stackSave) : ¬ Grows op := by
  unfold Grows
  rw [h]
  simp

theorem after_current {tr : List Op} (h : RestoresOk tr) (m : Nat) : After tr m ↔ Current tr m := by
  induction tr generalizing m with
  | nil =>
    constructor
    · intro h; exact h.elim
    · intro h; cases h
  | cons op tr ih =>
    have ih := ih fun o ho => h o (List.mem_cons_of_mem _ ho)
    show Adv op (After tr) m ↔ _
    by_cases h1 : op.kind = .stackSave
    · rw [adv_save h1]
      constructor
      · rintro (hr | hr)
        · exact .save h1 hr
        · exact .keep (by rw [h1]; simp) (grows_save h1) ((ih m).1 hr)
      · intro hc
        cases hc with
        | save _ hr => exact Or.inl hr
        | restore hk _ => rw [h1] at hk; cases hk
        | again hk _ _ _ => rw [h1] at hk; cases hk
        | keep _ _ hc => exact Or.inr ((ih m).2 hc)
    by_cases h2 : op.kind = .stackRestore
    · rw [adv_restore h2]
      obtain ⟨n, hn⟩ := h op (by simp) h2
      have hres : restored op = some n := by unfold restored; rw [hn]; rfl
      rw [hres]
      constructor
      · rintro (hr | ⟨hr, hr'⟩)
        · cases hr
          exact .restore h2 hn
        · exact .again h2 hn ((ih n).1 (hr n rfl)) ((ih m).1 hr')
      · intro hc
        cases hc with
        | save hk _ => rw [h2] at hk; cases hk
        | restore _ ho =>
          rw [hn] at ho
          cases ho
          exact Or.inl rfl
        | again _ ho hc1 hc2 =>
          rw [hn] at ho
          cases ho
          refine Or.inr ⟨?_, (ih m).2 hc2⟩
          intro k hk
          cases hk
          exact (ih _).2 hc1
        | keep hk _ _ => exact absurd h2 hk
    · rw [adv_other h1 h2]
      constructor
      · rintro ⟨hl, hr⟩
        exact .keep h2 (fun hg => by rw [(leaves_iff op).2 hg] at hl; cases hl) ((ih m).1 hr)
      · intro hc
        cases hc with
        | save hk _ => exact absurd hk h1
        | restore hk _ => exact absurd hk h2
        | again hk _ _ _ => exact absurd hk h2
        | keep _ hg hc =>
          refine ⟨?_, (ih m).2 hc⟩
          cases hl : leaves op with
          | false => rfl
          | true => exact absurd ((leaves_iff op).1 hl) hg

theorem restoresOk_trace (hM : Markers f) {b : Nat} {tr : List Op} (h : Trace f b tr) : RestoresOk tr := by
  induction h with
  | start => intro op hop; cases hop
  | @jump b t blk tr _ hb _ ih =>
    intro op hop hk
    rcases List.mem_append.1 hop with hop | hop
    · rw [List.mem_reverse] at hop
      rcases List.mem_append.1 hop with hop | hop
      · exact (hM.restores blk (List.mem_of_getElem? hb) op hop hk).2
      · cases ht : blk.term with
        | invoke o n e =>
          rw [ht] at hop
          simp only [invoked, List.mem_singleton] at hop
          subst hop
          exact absurd hk (hM.invokes blk (List.mem_of_getElem? hb) op n e ht).2
        | _ => rw [ht] at hop; cases hop
    · exact ih op hop hk

theorem restoresOk_path (hM : Markers f) {p : Site} {tr : List Op} (h : PathTo f p tr) : RestoresOk tr := by
  obtain ⟨blk, tr0, hb, ht, rfl⟩ := h
  intro op hop hk
  rcases List.mem_append.1 hop with hop | hop
  · rw [List.mem_reverse] at hop
    exact (hM.restores blk (List.mem_of_getElem? hb) op (List.mem_of_mem_take hop) hk).2
  · exact restoresOk_trace hM ht op hop hk

theorem mem_stateAt (hM : Markers f) {st : States} (hc : Closed f st) {p : Site} {s : Frontier} (h : stateAt f st p = some s) (m : Nat) :
    m ∈ s ↔ ∀ tr, PathTo f p tr → Current tr m := by
  obtain ⟨blk, e, hb, he, rfl⟩ := stateAt_some.1 h
  have h1 : (fun x => x ∈ e) = Always f p.block := by
    funext x
    exact propext (closed_iff hc he x)
  rw [mem_steps, h1]
  have hne : Nonempty {tr // Trace f p.block tr} := by
    obtain ⟨tr, ht⟩ := hc.reach _ e he
    exact ⟨⟨tr, ht⟩⟩
  constructor
  · intro ha tr htr
    rw [← after_current (restoresOk_path hM htr)]
    obtain ⟨blk', tr0, hb', ht, rfl⟩ := htr
    rw [hb] at hb'
    cases hb'
    rw [after_append]
    exact advL_mono (fun x hx => hx tr0 ht) ha
  · intro ha
    have : AdvL (blk.ops.take p.index) (fun m => ∀ t : {tr // Trace f p.block tr}, After t.1 m) m := by
      apply advL_all
      intro t
      have hp : PathTo f p ((blk.ops.take p.index).reverse ++ t.1) := ⟨blk, t.1, hb, t.2, rfl⟩
      have := (after_current (restoresOk_path hM hp) m).2 (ha _ hp)
      rwa [after_append] at this
    exact advL_mono (fun x hx tr ht => hx ⟨tr, ht⟩) this

theorem redundant_iff (hM : Markers f) {st : States} (hc : Closed f st) {p : Site} {op : Op} (hop : opAt f p = some op) :
    (∃ s, stateAt f st p = some s ∧ Redundant op s) ↔ Reachable f p.block ∧ Superfluous f p op := by
  obtain ⟨blk0, hb0, hm0⟩ := opAt_mem hop
  obtain ⟨blk, hb, _⟩ := opAt_some.1 hop
  have hrest : ∀ m, op.kind = .stackRestore → (restored op = some m ↔ op.operands = [.register m]) := by
    intro m hk
    obtain ⟨n, hn⟩ := (hM.restores blk0 hb0 op hm0 hk).2
    unfold restored
    rw [hn]
    simp
  constructor
  · rintro ⟨s, hs, hr⟩
    refine ⟨?_, ?_⟩
    · obtain ⟨_, e, _, h2, _⟩ := stateAt_some.1 hs
      exact (closed_some hc).1 ⟨e, h2⟩
    · rcases hr with ⟨h1, h2, h3⟩ | ⟨h1, m, h2, h3⟩
      · obtain ⟨m, hm⟩ := List.exists_mem_of_ne_nil s h3
        exact Or.inl ⟨h1, h2, m, (mem_stateAt hM hc hs m).1 hm⟩
      · exact Or.inr ⟨h1, m, (hrest m h1).1 h2, (mem_stateAt hM hc hs m).1 h3⟩
  · rintro ⟨hr, hsup⟩
    obtain ⟨e, he⟩ := (closed_some hc).2 hr
    have hs : stateAt f st p = some (steps (blk.ops.take p.index) e) := stateAt_some.2 ⟨blk, e, hb, he, rfl⟩
    refine ⟨_, hs, ?_⟩
    rcases hsup with ⟨h1, h2, m, h3⟩ | ⟨h1, m, h2, h3⟩
    · exact Or.inl ⟨h1, h2, List.ne_nil_of_mem ((mem_stateAt hM hc hs m).2 h3)⟩
    · exact Or.inr ⟨h1, m, (hrest m h1).2 h2, (mem_stateAt hM hc hs m).2 h3⟩

theorem remove_eq {st : States} {pl : Plan} (h1 : analyze f = some st) (h2 : plan f st = some pl) :
    remove f = if count f .stackSave < 2 ∧ count f .stackRestore < 2 then some none
      else some (if pl.dead = [] then none else some (rewrite pl f)) := by
  unfold remove
  rw [h1]
  simp only [Option.bind_some, h2, Option.map_some]

/-- C77: the pass finishes, and the body it returns, if any, has the same executions.  Partial: blocks are assumed to be
numbered such that dominating ones come first, and the stack to be as high after a yield as before it, see the
violations below. -/
theorem C77_removing_markers_changes_nothing_partial (f : Body) (hv : Valid f) (hne : f ≠ []) (hd : DefsFirst f) (ho : Ordered f)
    (hM : Markers f) : ∃ r, remove f = some r ∧ ∀ g, r = some g → ∀ (V σ : Type) (W : World V σ) (frontier : σ → Nat)
      (mark : Nat → V) (w : σ), Stack W frontier mark → Quiet W frontier f → Nested W frontier mark f w → Safe W f w →
      SameBehaviour W f g w := by
  obtain ⟨st, h1, hc⟩ := analyze_spec hv.inRange
  obtain ⟨pl, h2, hp⟩ := plan_spec hv.single hd hc ho
  rw [remove_eq h1 h2]
  split
  · exact ⟨none, rfl, fun g hg => by cases hg⟩
  · refine ⟨_, rfl, ?_⟩
    intro g hg V σ W frontier mark w hS hQ hN hs
    split at hg
    · cases hg
    · cases hg
      exact remove_same hS hQ hv.inRange hne hv.single hd hM hc hp hN hs

theorem keepOps_filter (R : List (Nat × Nat)) (b : Nat) (ops : List Op) : ∀ i,
    Cse.keepOps R b i ops = ((ops.zipIdx i).filter fun q => decide ((b, q.2) ∉ R)).map Prod.fst := by
  induction ops with
  | nil => intro i; rfl
  | cons op ops ih =>
    intro i
    rw [Cse.keepOps, List.zipIdx_cons]
    split
    · rename_i h
      rw [ih, List.filter_cons_of_neg (by simpa using h)]
    · rename_i h
      rw [ih, List.filter_cons_of_pos (by simpa using h)]
      rfl

/-- C77: the operations which are removed are exactly the superfluous ones in reachable code; the others keep their kind,
their result and their order, and blocks keep their successors. -/
theorem C77_removed_exactly_superfluous_partial (f g : Body) (hv : Valid f) (hd : DefsFirst f) (ho : Ordered f)
    (hM : Markers f) (h : remove f = some (some g)) : g.length = f.length ∧ ∃ dead : List (Nat × Nat),
      (∀ b i op, opAt f ⟨b, i⟩ = some op → ((b, i) ∈ dead ↔ Reachable f b ∧ Superfluous f ⟨b, i⟩ op)) ∧
      ∀ (b : Nat) (blk : Block), f[b]? = some blk → ∃ blk' : Block, g[b]? = some blk' ∧ blk'.term.successors = blk.term.successors ∧
        blk'.ops.map (fun op => (op.kind, op.result)) =
          ((blk.ops.zipIdx.filter fun q => decide ((b, q.2) ∉ dead)).map Prod.fst).map fun op => (op.kind, op.result) := by
  obtain ⟨st, h1, hc⟩ := analyze_spec hv.inRange
  obtain ⟨pl, h2, hp⟩ := plan_spec hv.single hd hc ho
  rw [remove_eq h1 h2] at h
  split at h
  · cases h
  split at h
  · cases h
  cases h
  refine ⟨by simp [rewrite, Cse.rewrite], pl.dead, ?_, ?_⟩
  · intro b i op hop
    rw [hp.dead b i, ← redundant_iff hM hc hop]
    constructor
    · rintro ⟨o, s, e1, e2, e3⟩
      rw [hop] at e1
      cases e1
      exact ⟨s, e2, e3⟩
    · rintro ⟨s, e2, e3⟩
      exact ⟨op, s, hop, e2, e3⟩
  · intro b blk hb
    refine ⟨_, by unfold rewrite; rw [Cse.rewrite_get, hb]; rfl, ?_, ?_⟩
    · simp only [Cse.rewriteBlock, Cse.renameTerm]
      cases blk.term <;> rfl
    · simp only [Cse.rewriteBlock, keepOps_filter, List.map_map]
      rfl

/-- C77: if the pass returns nothing, then the body has no superfluous marker in reachable code, or at most one save and
at most one restore. -/
theorem C77_unchanged_only_without_superfluous_partial (f : Body) (hv : Valid f) (hd : DefsFirst f) (ho : Ordered f)
    (hM : Markers f) (h : remove f = some none) :
    (∀ b i op, opAt f ⟨b, i⟩ = some op → Reachable f b → ¬ Superfluous f ⟨b, i⟩ op) ∨
    (((f.flatMap Block.ops).filter fun op => decide (op.kind = .stackSave)).length ≤ 1 ∧
      ((f.flatMap Block.ops).filter fun op => decide (op.kind = .stackRestore)).length ≤ 1) := by
  obtain ⟨st, h1, hc⟩ := analyze_spec hv.inRange
  obtain ⟨pl, h2, hp⟩ := plan_spec hv.single hd hc ho
  rw [remove_eq h1 h2] at h
  split at h
  · rename_i hcount
    unfold count at hcount
    right
    omega
  · left
    intro b i op hop hr hs
    obtain ⟨s, h3, h4⟩ := (redundant_iff hM hc hop).2 ⟨hr, hs⟩
    have := (hp.dead b i).2 ⟨op, s, hop, h3, h4⟩
    split at h
    · rename_i hd
      rw [hd] at this
      cases this
    · cases h

/-! ### A concrete stack -/

/-- Values are booleans and numbers; the state is the number of cells on the stack and a log of the calls.  What happens
during a yield puts `y` cells on the stack. -/
def stackWorld (y : Nat) : World (Bool ⊕ Nat) (Nat × List Nat) where
  bool := .inl
  asBool
    | .inl b => some b
    | .inr _ => none
  asBool_bool _ := rfl
  bool_of_asBool v b h := by cases v <;> simp_all
  lit := .inr
  fixed _ := .inr 7
  compare v v' _ := some (.inl (decide (v = v')))
  compare_bool a b w := by cases a <;> cases b <;> rfl
  expose _ w := (.inr 0, w)
  consume _ w := w
  exec kind args w :=
    match kind, args with
    | .alloca _, _ => .ok (w.1 + 1, w.2) none none
    | .dictEntry _, _ => .ok (w.1 + 1, w.2) (some (.inr w.1)) none
    | .stackSave, _ => .ok w (some (.inr w.1)) none
    | .stackRestore, [.value (.inr n)] => .ok (min n w.1, w.2) none none
    | .call _ _, _ => .ok (w.1, w.1 :: w.2) none (some (.inl true))
    | _, _ => .ok w none none
  yield _ w := some (w.1 + y, w.2)

theorem stackWorld_stack : Stack (stackWorld 0) Prod.fst Sum.inr := by
  refine ⟨fun _ => rfl, ?_, ?_, fun _ _ => rfl, fun _ _ => rfl, ?_⟩
  · intro w n hn
    exact ⟨(min n w.1, w.2), rfl, by simpa using hn⟩
  · intro w
    show Out.ok (min w.1 w.1, w.2) none none = _
    rw [min_self]
  · intro v w w' h
    cases h
    rfl

theorem stackWorld_quiet (y : Nat) (f : Body) : Quiet (stackWorld y) Prod.fst f := by
  intro op _ h1 h2 hg s args _
  constructor
  · intro w r c hx
    unfold stackWorld at hx
    simp only [] at hx
    split at hx
    · exact (hg (Or.inl ⟨_, by assumption⟩)).elim
    · exact (hg (Or.inr (Or.inr (Or.inr (Or.inr (Or.inl ⟨_, by assumption⟩)))))).elim
    · exact (h1 (by assumption)).elim
    · exact (h2 (by assumption)).elim
    · cases hx; rfl
    · cases hx; rfl
  · intro w hx
    unfold stackWorld at hx
    simp only [] at hx
    split at hx <;> cases hx

/-- The restore which comes next, if there is one, is nested. -/
def checkNested : Config (Bool ⊕ Nat) (Nat × List Nat) → Bool
  | .at (op :: _) _ s =>
    if op.kind = .stackRestore then
      match op.operands with
      | [.register m] =>
        match s.env m with
        | some (.value (.inr n) false) => decide (n ≤ s.world.1)
        | _ => false
      | _ => false
    else true
  | _ => true

theorem nested_of_check {y N : Nat} {w : Nat × List Nat} {x : Exit (Nat × List Nat)}
    (hN : run (stackWorld y) f N (start f w) = .done x)
    (h : ∀ n < N, checkNested (run (stackWorld y) f n (start f w)) = true) : Nested (stackWorld y) Prod.fst Sum.inr f w := by
  rintro p s op m ⟨blk, n, hb, hi, hrun⟩ hop hk ho
  have hlt : n < N := by
    by_contra hge
    rw [Ferlium.Negation.run_after hN (by omega)] at hrun
    cases hrun
  have hc := h n hlt
  rw [hrun] at hc
  obtain ⟨blk', hb', hget⟩ := opAt_some.1 hop
  rw [hb] at hb'
  cases hb'
  obtain ⟨hlt', hget⟩ := List.getElem?_eq_some_iff.1 hget
  rw [List.drop_eq_getElem_cons hlt', hget] at hc
  simp only [checkNested, hk, if_true, ho] at hc
  split at hc
  · rename_i k hk'
    exact ⟨k, hk', by simpa using hc⟩
  · cases hc

theorem analyzeFrom_again {st : States} (h : (sweep f st).2 = true) : analyzeFrom f st = analyzeFrom f (sweep f st).1 := by
  rw [analyzeFrom]
  generalize sweep f st = r at h
  obtain ⟨st, fl⟩ := r
  simp only [] at h
  subst h
  rfl

theorem analyzeFrom_stop {st : States} (h : (sweep f st).2 = false) : analyzeFrom f st = some (sweep f st).1 := by
  rw [analyzeFrom]
  generalize sweep f st = r at h
  obtain ⟨st, fl⟩ := r
  simp only [] at h
  subst h
  rfl

/-- A loop whose body is a region, inside a region; afterwards an empty region. -/
def regionLoop : Body :=
  [ { ops := [⟨some 0, .alloca 0, []⟩, ⟨some 1, .stackSave, []⟩], term := .goto 1 },
    { ops := [⟨some 2, .stackSave, []⟩, ⟨some 3, .alloca 0, []⟩, ⟨none, .call 0 0, [.function 0, .register 0]⟩,
        ⟨none, .stackRestore, [.register 2]⟩], term := .condBr (.constant (.bool true)) 3 2 },
    { ops := [⟨none, .stackRestore, [.register 1]⟩], term := .goto 1 },
    { ops := [⟨none, .stackRestore, [.register 1]⟩, ⟨some 4, .stackSave, []⟩, ⟨none, .stackRestore, [.register 4]⟩], term := .ret } ]

/-- What the pass makes of it. -/
def regionLoopShort : Body :=
  [ { ops := [⟨some 0, .alloca 0, []⟩, ⟨some 1, .stackSave, []⟩], term := .goto 1 },
    { ops := [⟨some 3, .alloca 0, []⟩, ⟨none, .call 0 0, [.function 0, .register 0]⟩, ⟨none, .stackRestore, [.register 1]⟩],
      term := .condBr (.constant (.bool true)) 3 2 },
    { ops := [⟨none, .stackRestore, [.register 1]⟩], term := .goto 1 },
    { ops := [⟨none, .stackRestore, [.register 1]⟩], term := .ret } ]

theorem regionLoop_remove : remove regionLoop = some (some regionLoopShort) := by
  unfold remove analyze
  rw [analyzeFrom_again (by decide +kernel), analyzeFrom_stop (by decide +kernel)]
  decide +kernel

theorem regionLoop_dom0 (n : Nat) : Dominates (graphOf regionLoop) 0 0 n := by
  rintro p ⟨h, _⟩
  exact List.mem_of_head? h

theorem regionLoop_dom1 {n : Nat} (hn : n ≠ 0) : Dominates (graphOf regionLoop) 0 1 n := by
  rintro p ⟨h1, h2, h3⟩
  match p, h1, h2, h3 with
  | [x], h1, h2, _ =>
    simp only [List.head?_cons, Option.some.injEq] at h1
    simp only [List.getLast?_singleton, Option.some.injEq] at h2
    omega
  | x :: y :: p, h1, _, h3 =>
    simp only [List.head?_cons, Option.some.injEq] at h1
    subst h1
    rw [List.isChain_cons_cons] at h3
    obtain ⟨⟨l, hl, hy⟩, _⟩ := h3
    cases hl
    simp [Term.successors] at hy
    simp [hy]

theorem regionLoop_valid : Valid regionLoop := by
  refine ⟨inRange_of (by decide), ⟨by decide, ?_⟩, ?_⟩
  · intro b hb
    simp only [regionLoop, List.mem_cons, List.not_mem_nil, or_false] at hb
    rcases hb with rfl | rfl | rfl | rfl <;> simp
  · intro b hb op hop hk
    simp only [regionLoop, List.mem_cons, List.not_mem_nil, or_false] at hb
    rcases hb with rfl | rfl | rfl | rfl <;> simp at hop
    all_goals first
      | (rcases hop with rfl | rfl | rfl | rfl <;> cases hk)
      | (rcases hop with rfl | rfl | rfl <;> cases hk)
      | (rcases hop with rfl | rfl <;> cases hk)
      | (subst hop; cases hk)

theorem regionLoop_defs : DefsFirst regionLoop := by
  apply defsFirst_of_sites
  · intro p hp r hr q hq hres
    simp [sites, regionLoop, blockSites] at hp hq
    rcases hp with rfl | rfl | rfl | rfl | rfl | rfl | rfl | rfl | rfl | rfl <;> simp at hr <;>
      rcases hq with rfl | rfl | rfl | rfl | rfl | rfl | rfl | rfl | rfl | rfl <;> simp at hres <;>
      first
      | (exfalso; omega)
      | (exact Or.inl ⟨rfl, by decide⟩)
      | (exact Or.inr ⟨by decide, regionLoop_dom0 _⟩)
  · intro b blk r hb hr q hq hres
    rcases b with _ | _ | _ | _ | b
    all_goals first
      | (cases hb; simp [Term.operands] at hr; done)
      | (simp [regionLoop] at hb)

theorem regionLoop_ordered : Ordered regionLoop := by
  have hp : IsPath (graphOf regionLoop) 0 1 [0, 1] ∧ IsPath (graphOf regionLoop) 0 2 [0, 1, 2] ∧
      IsPath (graphOf regionLoop) 0 3 [0, 1, 3] := by
    simp [IsPath, Graph.Edge, graphOf, regionLoop, Term.successors]
  obtain ⟨p1, p2, p3⟩ := hp
  intro a b hb hdom
  have hlt := reachable_lt (inRange_of (by decide)) (by simp [regionLoop]) hb
  rcases b with _ | _ | _ | _ | b
  · have := hdom [0] (by simp [IsPath])
    simp at this; omega
  · have := hdom _ p1; simp at this; omega
  · have := hdom _ p2; simp at this; omega
  · have := hdom _ p3; simp at this; omega
  · simp [regionLoop] at hlt; omega

/-- A checked form of the rules for markers. -/
theorem markers_of (h : ∀ b ∈ f, (∀ op ∈ b.ops, (op.kind = .stackSave → op.operands = []) ∧
      (op.kind = .stackRestore → op.result = none ∧ ∃ m, op.operands = [.register m])) ∧
      ∀ op n e, b.term ≠ .invoke op n e) : Markers f :=
  ⟨fun b hb op hop => ((h b hb).1 op hop).1, fun b hb op hop => ((h b hb).1 op hop).2,
    fun b hb op n e ht => absurd ht ((h b hb).2 op n e)⟩

theorem regionLoop_markers : Markers regionLoop := by
  apply markers_of
  intro b hb
  simp only [regionLoop, List.mem_cons, List.not_mem_nil, or_false] at hb
  rcases hb with rfl | rfl | rfl | rfl <;> simp

theorem regionLoop_run : run (stackWorld 0) regionLoop 12 (start regionLoop (5, [])) = .done (.returned (6, [7])) := by rfl

/-- The hypotheses of the theorems hold of the loop, and the pass changes it. -/
example : Valid regionLoop ∧ regionLoop ≠ [] ∧ DefsFirst regionLoop ∧ Ordered regionLoop ∧ Markers regionLoop ∧
    remove regionLoop = some (some regionLoopShort) ∧ Stack (stackWorld 0) Prod.fst Sum.inr ∧
    Quiet (stackWorld 0) Prod.fst regionLoop ∧ Nested (stackWorld 0) Prod.fst Sum.inr regionLoop (5, []) ∧
    Safe (stackWorld 0) regionLoop (5, []) :=
  ⟨regionLoop_valid, by simp [regionLoop], regionLoop_defs, regionLoop_ordered, regionLoop_markers, regionLoop_remove,
    stackWorld_stack, stackWorld_quiet _ _, nested_of_check regionLoop_run (by decide +kernel), safe_of_run regionLoop_run (by simp)⟩

/-- A body in which nothing is superfluous. -/
def twoRegions : Body :=
  [ { ops := [⟨some 0, .stackSave, []⟩, ⟨some 1, .alloca 0, []⟩, ⟨some 2, .stackSave, []⟩, ⟨some 3, .alloca 0, []⟩,
        ⟨none, .stackRestore, [.register 2]⟩, ⟨none, .stackRestore, [.register 0]⟩], term := .ret } ]

/-- The last theorem applies to bodies with several regions. -/
example : remove twoRegions = some none ∧ 1 < ((twoRegions.flatMap Block.ops).filter fun op => decide (op.kind = .stackSave)).length := by
  refine ⟨?_, by decide⟩
  unfold remove analyze
  rw [analyzeFrom_stop (by decide +kernel)]
  decide +kernel

/-! ### Violations -/

/-- Block 2 dominates block 1. -/
def laterFirst : Body :=
  [ { ops := [⟨some 0, .stackSave, []⟩], term := .goto 2 },
    { ops := [⟨some 2, .stackSave, []⟩, ⟨some 4, .alloca 0, []⟩, ⟨none, .stackRestore, [.register 2]⟩], term := .goto 3 },
    { ops := [⟨some 1, .stackSave, []⟩, ⟨some 3, .alloca 0, []⟩, ⟨none, .stackRestore, [.register 1]⟩], term := .goto 1 },
    { ops := [], term := .ret } ]

/-- The result for it: register 1 is used in block 1 but no longer defined. -/
def laterFirstBroken : Body :=
  [ { ops := [⟨some 0, .stackSave, []⟩], term := .goto 2 },
    { ops := [⟨some 4, .alloca 0, []⟩, ⟨none, .stackRestore, [.register 1]⟩], term := .goto 3 },
    { ops := [⟨some 3, .alloca 0, []⟩, ⟨none, .stackRestore, [.register 0]⟩], term := .goto 1 },
    { ops := [], term := .ret } ]

theorem laterFirst_remove : remove laterFirst = some (some laterFirstBroken) := by
  unfold remove analyze
  rw [analyzeFrom_again (by decide +kernel), analyzeFrom_again (by decide +kernel), analyzeFrom_stop (by decide +kernel)]
  decide +kernel

theorem laterFirst_valid : Valid laterFirst := by
  refine ⟨inRange_of (by decide), ⟨by decide, ?_⟩, ?_⟩
  · intro b hb
    simp only [laterFirst, List.mem_cons, List.not_mem_nil, or_false] at hb
    rcases hb with rfl | rfl | rfl | rfl <;> simp
  · intro b hb op hop hk
    simp only [laterFirst, List.mem_cons, List.not_mem_nil, or_false] at hb
    rcases hb with rfl | rfl | rfl | rfl <;> simp at hop
    all_goals first
      | (rcases hop with rfl | rfl | rfl <;> cases hk)
      | (subst hop; cases hk)

theorem laterFirst_defs : DefsFirst laterFirst := by
  apply defsFirst_of_sites
  · intro p hp r hr q hq hres
    simp [sites, laterFirst, blockSites] at hp hq
    rcases hp with rfl | rfl | rfl | rfl | rfl | rfl | rfl <;> simp at hr <;>
      rcases hq with rfl | rfl | rfl | rfl | rfl | rfl | rfl <;> simp at hres <;>
      first
      | (exfalso; omega)
      | (exact Or.inl ⟨rfl, by decide⟩)
  · intro b blk r hb hr q hq hres
    rcases b with _ | _ | _ | _ | b
    all_goals first
      | (cases hb; simp [Term.operands] at hr; done)
      | (simp [laterFirst] at hb)

theorem laterFirst_markers : Markers laterFirst := by
  apply markers_of
  intro b hb
  simp only [laterFirst, List.mem_cons, List.not_mem_nil, or_false] at hb
  rcases hb with rfl | rfl | rfl | rfl <;> simp

/-- C77, violated without the order of blocks (finding F47): a marker is replaced by another one whose save is removed as
well, so that the result uses a register which is not defined. -/
theorem C77_unordered_blocks_violated : ∃ f g, Valid f ∧ f ≠ [] ∧ DefsFirst f ∧ Markers f ∧ remove f = some (some g) ∧
    Stack (stackWorld 0) Prod.fst Sum.inr ∧ Quiet (stackWorld 0) Prod.fst f ∧ Nested (stackWorld 0) Prod.fst Sum.inr f (0, []) ∧
    Ends (stackWorld 0) f (0, []) (.returned (0, [])) ∧ Ends (stackWorld 0) g (0, []) .stuck := by
  have hrun : run (stackWorld 0) laterFirst 11 (start laterFirst (0, [])) = .done (.returned (0, [])) := by rfl
  exact ⟨laterFirst, laterFirstBroken, laterFirst_valid, by simp [laterFirst], laterFirst_defs, laterFirst_markers, laterFirst_remove,
    stackWorld_stack, stackWorld_quiet _ _, nested_of_check hrun (by decide +kernel), ⟨11, hrun⟩, ⟨8, by rfl⟩⟩

/-- A region after a yield. -/
def yieldRegion : Body :=
  [ { ops := [⟨some 0, .stackSave, []⟩], term := .yield (.parameter 0) 1 },
    { ops := [⟨some 1, .stackSave, []⟩, ⟨some 2, .alloca 0, []⟩, ⟨none, .stackRestore, [.register 1]⟩], term := .ret } ]

/-- The result for it. -/
def yieldRegionShort : Body :=
  [ { ops := [⟨some 0, .stackSave, []⟩], term := .yield (.parameter 0) 1 },
    { ops := [⟨some 2, .alloca 0, []⟩, ⟨none, .stackRestore, [.register 0]⟩], term := .ret } ]

theorem yieldRegion_remove : remove yieldRegion = some (some yieldRegionShort) := by
  unfold remove analyze
  rw [analyzeFrom_again (by decide +kernel), analyzeFrom_stop (by decide +kernel)]
  decide +kernel

/-- C77, violated across a yield (finding F48): if the code which runs between the yield and its resumption leaves a cell
on the stack, then the original keeps that cell and the result removes it. -/
theorem C77_cells_of_the_caller_violated : ∃ f g, remove f = some (some g) ∧
    Quiet (stackWorld 1) Prod.fst f ∧ Nested (stackWorld 1) Prod.fst Sum.inr f (0, []) ∧
    Ends (stackWorld 1) f (0, []) (.returned (1, [])) ∧ Ends (stackWorld 1) g (0, []) (.returned (0, [])) := by
  have hrun : run (stackWorld 1) yieldRegion 6 (start yieldRegion (0, [])) = .done (.returned (1, [])) := by rfl
  exact ⟨yieldRegion, yieldRegionShort, yieldRegion_remove, stackWorld_quiet _ _, nested_of_check hrun (by decide +kernel),
    ⟨6, hrun⟩, ⟨6, by rfl⟩⟩

end Ferlium.StackRegion
