import Verif.Proofs.CseStep
import Verif.Props.Negation

/-!
C76: elimination of repeated address computations (`src/mir/pass/cse.rs` 985-1241).
-/
namespace Ferlium.Cse

open Ferlium.Mir Ferlium.Dominance Ferlium.Edit
open Ferlium.Negation (Site opAt opAt_some opAt_mem opAt_of_mem mem_sites sites blockSites Before before_iff site_unique safe_of_run
  inRange_of)

/-! ### Specification -/

/-- The operations which compute a place: a field of a place, an entry of a dictionary. -/
def IsPlace (k : Kind) : Prop := (∃ d, k = .subfield d) ∨ ∃ d, k = .dictEntry d

/-- The operations which end the life of stack cells. -/
def EndsRegion (k : Kind) : Prop := k = .stackRestore ∨ k = .endProject ∨ ∃ t, k = .project t

/-- Address computations depend on their arguments only and change nothing. -/
def PureAddresses {V σ : Type} (W : World V σ) (f : Body) : Prop :=
  ∀ b ∈ f, ∀ op ∈ b.ops, IsPlace op.kind →
    ∃ F : List V → V, ∀ vs w, W.exec op.kind (vs.map .value) w = .ok w (some (F vs)) none

/-- Address computations define a register. -/
def PlacesNamed (f : Body) : Prop := ∀ b ∈ f, ∀ op ∈ b.ops, IsPlace op.kind → ∃ r, op.result = some r

theorem numberable_iff {k : Kind} : numberable k = true ↔ IsPlace k := by
  unfold IsPlace
  cases k <;> simp [numberable]

theorem pops_iff {k : Kind} : pops k = true ↔ EndsRegion k := by
  unfold EndsRegion
  cases k <;> simp [pops]

variable {f : Body}

theorem named_of (h : PlacesNamed f) : Named f := fun b hb op hop hn => h b hb op hop (numberable_iff.1 hn)

theorem placeFn_of {V σ : Type} {W : World V σ} (h : PureAddresses W f) : ∃ F, PlaceFn W f F := by
  classical
  refine ⟨fun k vs => if h : ∃ v, ∀ w, W.exec k (vs.map .value) w = .ok w (some v) none then h.choose else W.bool true, ?_⟩
  intro b hb op hop hn vs w
  obtain ⟨F, hF⟩ := h b hb op hop (numberable_iff.1 hn)
  have hex : ∃ v, ∀ w, W.exec op.kind (vs.map .value) w = .ok w (some v) none := ⟨F vs, fun w => hF vs w⟩
  dsimp only
  rw [dif_pos hex]
  exact hex.choose_spec w

theorem eliminate_eq {st : State} (h : numbering f = some st) :
    eliminate f = some none ∨ (eliminate f = some (some (rewrite st f)) ∧ st.merged ≠ []) := by
  unfold eliminate
  split
  · rw [h]
    simp only [Option.map_some]
    split
    · exact Or.inl rfl
    · rename_i hne
      exact Or.inr ⟨rfl, hne⟩
  · exact Or.inl rfl

/-- C76: the pass finishes, and the body it returns, if any, has the same executions.  Partial: that an entry of a
dictionary is a place which depends on the dictionary only is assumed here, whereas the reference interpreter puts it
into a new stack cell, see the violation below. -/
theorem C76_merging_places_changes_nothing_partial (f : Body) (hv : Valid f) (hne : f ≠ []) (hd : DefsFirst f)
    (hN : PlacesNamed f) : ∃ r, eliminate f = some r ∧ ∀ g, r = some g → ∀ (V σ : Type) (W : World V σ) (w : σ),
      PureAddresses W f → Safe W f w → SameBehaviour W f g w := by
  obtain ⟨st, h1, hG⟩ := numbering_spec hv.inRange hne hv.single hd (named_of hN)
  rcases eliminate_eq h1 with h | ⟨h, _⟩
  · exact ⟨none, h, fun g hg => by cases hg⟩
  · refine ⟨_, h, ?_⟩
    intro g hg V σ W w hp hs
    cases hg
    obtain ⟨F, hF⟩ := placeFn_of hp
    exact rewrite_same hv hd hG hF hs

/-! ### Nothing is left to merge -/

theorem graphOf_rewrite {st : State} : graphOf (rewrite st f) = graphOf f := by
  apply List.ext_getElem?
  intro b
  unfold graphOf
  rw [List.getElem?_map, List.getElem?_map, rewrite_get]
  cases f[b]? with
  | none => rfl
  | some blk =>
    simp only [Option.map_some, rewriteBlock, renameTerm]
    cases blk.term <;> rfl

theorem keepOps_get {R : List (Nat × Nat)} {b : Nat} : ∀ (ops : List Op) (i j : Nat) (op : Op),
    (keepOps R b i ops)[j]? = some op → ∃ k, j ≤ k ∧ ops[k]? = some op ∧ (b, i + k) ∉ R := by
  intro ops
  induction ops with
  | nil => intro i j op h; simp [keepOps] at h
  | cons o ops ih =>
    intro i j op h
    rw [keepOps] at h
    split at h
    · obtain ⟨k, h1, h2, h3⟩ := ih _ _ _ h
      exact ⟨k + 1, by omega, by simpa using h2, by rwa [show i + (k + 1) = i + 1 + k by omega]⟩
    · rename_i hne
      cases j with
      | zero =>
        simp only [List.getElem?_cons_zero, Option.some.injEq] at h
        exact ⟨0, le_refl _, by simp [h], by simpa using hne⟩
      | succ j =>
        rw [List.getElem?_cons_succ] at h
        obtain ⟨k, h1, h2, h3⟩ := ih _ _ _ h
        exact ⟨k + 1, by omega, by simpa using h2, by rwa [show i + (k + 1) = i + 1 + k by omega]⟩

theorem keepOps_lt {R : List (Nat × Nat)} {b : Nat} : ∀ (ops : List Op) (i j j' : Nat) (op op' : Op), j < j' →
    (keepOps R b i ops)[j]? = some op → (keepOps R b i ops)[j']? = some op' →
    ∃ k k', k < k' ∧ ops[k]? = some op ∧ (b, i + k) ∉ R ∧ ops[k']? = some op' ∧ (b, i + k') ∉ R := by
  intro ops
  induction ops with
  | nil => intro i j j' op op' _ h; simp [keepOps] at h
  | cons o ops ih =>
    intro i j j' op op' hlt h h'
    rw [keepOps] at h h'
    split at h
    · rename_i hin
      rw [if_pos hin] at h'
      obtain ⟨k, k', h1, h2, h3, h4, h5⟩ := ih _ _ _ _ _ hlt h h'
      exact ⟨k + 1, k' + 1, by omega, by simpa using h2, by rwa [show i + (k + 1) = i + 1 + k by omega],
        by simpa using h4, by rwa [show i + (k' + 1) = i + 1 + k' by omega]⟩
    · rename_i hne
      rw [if_neg hne] at h'
      cases j' with
      | zero => omega
      | succ j' =>
        rw [List.getElem?_cons_succ] at h'
        cases j with
        | zero =>
          simp only [List.getElem?_cons_zero, Option.some.injEq] at h
          obtain ⟨k', h1, h2, h3⟩ := keepOps_get _ _ _ _ h'
          exact ⟨0, k' + 1, by omega, by simp [h], by simpa using hne, by simpa using h2,
            by rwa [show i + (k' + 1) = i + 1 + k' by omega]⟩
        | succ j =>
          rw [List.getElem?_cons_succ] at h
          obtain ⟨k, k', h1, h2, h3, h4, h5⟩ := ih _ _ _ _ _ (by omega : j < j') h h'
          exact ⟨k + 1, k' + 1, by omega, by simpa using h2, by rwa [show i + (k + 1) = i + 1 + k by omega],
            by simpa using h4, by rwa [show i + (k' + 1) = i + 1 + k' by omega]⟩

theorem rewrite_op {st : State} {d : Site} {op : Op} (h : opAt (rewrite st f) d = some op) :
    ∃ (blk : Block) (o : Op), f[d.block]? = some blk ∧ (keepOps st.removed d.block 0 blk.ops)[d.index]? = some o ∧
      op = renameOp st.merged o := by
  obtain ⟨blk', h1, h2⟩ := opAt_some.1 h
  rw [rewrite_get] at h1
  cases hb : f[d.block]? with
  | none => rw [hb] at h1; cases h1
  | some blk =>
    rw [hb] at h1
    cases h1
    simp only [rewriteBlock, List.getElem?_map, Option.map_eq_some_iff] at h2
    obtain ⟨o, h3, rfl⟩ := h2
    exact ⟨blk, o, rfl, h3, rfl⟩

/-- Operations of the rewritten body, one before the other, come from such operations of the original one. -/
theorem rewrite_before {st : State} {d d' : Site} {op op' : Op} (h : opAt (rewrite st f) d = some op)
    (h' : opAt (rewrite st f) d' = some op') (hb : Before (rewrite st f) d d') :
    ∃ q q' o o', opAt f q = some o ∧ opAt f q' = some o' ∧ Before f q q' ∧ (q'.block, q'.index) ∉ st.removed ∧
      op = renameOp st.merged o ∧ op' = renameOp st.merged o' ∧ q'.block = d'.block := by
  obtain ⟨blk, o, h1, h2, rfl⟩ := rewrite_op h
  obtain ⟨blk', o', h1', h2', rfl⟩ := rewrite_op h'
  rw [before_iff, graphOf_rewrite] at hb
  rcases hb with ⟨he, hlt⟩ | ⟨hne, hdom⟩
  · rw [← he, h1] at h1'
    cases h1'
    rw [← he] at h2'
    obtain ⟨k, k', k1, k2, k3, k4, k5⟩ := keepOps_lt _ _ _ _ _ _ hlt h2 h2'
    rw [Nat.zero_add] at k3 k5
    exact ⟨⟨d.block, k⟩, ⟨d.block, k'⟩, o, o', opAt_some.2 ⟨blk, h1, k2⟩, opAt_some.2 ⟨blk, h1, k4⟩, Or.inl ⟨rfl, k1⟩, k5, rfl, rfl, he⟩
  · obtain ⟨k, _, k2, k3⟩ := keepOps_get _ _ _ _ h2
    obtain ⟨k', _, k2', k3'⟩ := keepOps_get _ _ _ _ h2'
    rw [Nat.zero_add] at k3 k3'
    exact ⟨⟨d.block, k⟩, ⟨d'.block, k'⟩, o, o', opAt_some.2 ⟨blk, h1, k2⟩, opAt_some.2 ⟨blk', h1', k2'⟩,
      before_iff.2 (Or.inr ⟨hne, hdom⟩), k3', rfl, rfl, rfl⟩

theorem canon_nil (v : Value) : canon [] v = v := by
  unfold canon
  cases v <;> simp

theorem exprOf_nil (op : Op) : exprOf [] op = ⟨op.kind, op.operands⟩ := by
  unfold exprOf
  congr 1
  rw [show canon [] = id from funext canon_nil, List.map_id]

/-- Two computations in a body make the pass look at it. -/
theorem worthwhile_of {d d' : Site} {op op' : Op} (h : opAt f d = some op) (h' : opAt f d' = some op') (hne : d ≠ d')
    (hn : numberable op.kind = true) (hn' : numberable op'.kind = true) : worthwhile f = true := by
  have hmap : (f.flatMap Block.ops) = (sites f).map Prod.fst := by
    unfold sites
    rw [List.map_flatMap]
    have : ∀ (l : List Block) (n : Nat), l.flatMap Block.ops = (l.zipIdx n).flatMap fun p => (blockSites p).map Prod.fst := by
      intro l
      induction l with
      | nil => intro n; rfl
      | cons b l ih =>
        intro n
        rw [List.zipIdx_cons, List.flatMap_cons, List.flatMap_cons, ← ih (n + 1)]
        congr 1
        unfold blockSites
        rw [List.map_map]
        have : ∀ (l : List Op) (i : Nat), l = (l.zipIdx i).map ((Prod.fst : Op × Site → Op) ∘ fun q => (q.1, (⟨n, q.2⟩ : Site))) := by
          intro l
          induction l with
          | nil => intro i; rfl
          | cons o l ih => intro i; rw [List.zipIdx_cons, List.map_cons, ← ih (i + 1)]; rfl
        exact this b.ops 0
    exact this f 0
  unfold worthwhile
  rw [hmap, List.filter_map, List.length_map, decide_eq_true_iff]
  have h1 : (op, d) ∈ (sites f).filter ((fun op => numberable op.kind) ∘ Prod.fst) := List.mem_filter.2 ⟨mem_sites.2 h, hn⟩
  have h2 : (op', d') ∈ (sites f).filter ((fun op => numberable op.kind) ∘ Prod.fst) := List.mem_filter.2 ⟨mem_sites.2 h', hn'⟩
  generalize (sites f).filter ((fun op => numberable op.kind) ∘ Prod.fst) = l at h1 h2 ⊢
  match l, h1, h2 with
  | [x], h1, h2 =>
    simp only [List.mem_singleton] at h1 h2
    rw [← h2] at h1
    cases h1
    exact absurd rfl hne
  | _ :: _ :: _, _, _ => simp

/-- C76: in the body the pass leaves, the place of a field is not computed again where it was computed on every path before. -/
theorem C76_no_place_is_computed_again (f : Body) (hv : Valid f) (hne : f ≠ []) (hd : DefsFirst f) (hN : PlacesNamed f)
    (ho : Ordered f) : ∃ r, eliminate f = some r ∧ ∀ d d' op op', opAt (r.getD f) d = some op → opAt (r.getD f) d' = some op' →
      Edit.Reachable f d'.block → Before (r.getD f) d d' → op.kind = op'.kind → op.operands = op'.operands →
      (∀ x, op'.kind ≠ .subfield x) := by
  obtain ⟨st, h1, hG⟩ := numbering_spec hv.inRange hne hv.single hd (named_of hN)
  have key : ∀ q q' o o', opAt f q = some o → opAt f q' = some o' → Before f q q' → Edit.Reachable f q'.block →
      (q'.block, q'.index) ∉ st.removed → exprOf st.merged o = exprOf st.merged o' → ∀ x, o'.kind ≠ .subfield x := by
    intro q q' o o' k1 k2 k3 k4 k5 k6 x hx
    have hnn : numberable o'.kind = true := by rw [hx]; rfl
    refine hG.complete ho q' o' k4 k2 hnn ?_ q o k1 k3 ?_ k6
    · intro y c hy hc
      exact k5 ((hG.removed _ _).2 ⟨o', y, c, k2, hy, hc⟩)
    · intro hm; rw [hx] at hm; cases hm
  rcases eliminate_eq h1 with h | ⟨h, _⟩
  · refine ⟨none, h, ?_⟩
    intro d d' op op' k1 k2 k3 k4 k5 k6 x hx
    simp only [Option.getD_none] at k1 k2 k4
    have hdd : d ≠ d' := by
      rintro rfl
      exact Negation.before_irrefl _ k4
    have hw := worthwhile_of k1 k2 hdd (by rw [k5, hx]; rfl) (by rw [hx]; rfl)
    have hm : st.merged = [] := by
      unfold eliminate at h
      rw [if_pos hw, h1] at h
      simp only [Option.map_some, Option.some.injEq] at h
      by_contra hne
      rw [if_neg hne] at h
      cases h
    refine key d d' op op' k1 k2 k4 k3 ?_ ?_ x hx
    · intro hr
      obtain ⟨_, _, _, _, _, h3⟩ := (hG.removed _ _).1 hr
      rw [hm] at h3; cases h3
    · rw [hm, exprOf_nil, exprOf_nil, k5, k6]
  · refine ⟨_, h, ?_⟩
    intro d d' op op' k1 k2 k3 k4 k5 k6 x hx
    simp only [Option.getD_some] at k1 k2 k4
    obtain ⟨q, q', o, o', j1, j2, j3, j4, rfl, rfl, j5⟩ := rewrite_before k1 k2 k4
    refine key q q' o o' j1 j2 j3 (by rw [j5]; exact k3) j4 ?_ x hx
    unfold exprOf
    have k5 : o.kind = o'.kind := k5
    have k6 : o.operands.map (canon st.merged) = o'.operands.map (canon st.merged) := k6
    rw [k5, k6]

/-! ### Which computations disappear -/

theorem keepOps_mem {R : List (Nat × Nat)} {b : Nat} : ∀ (ops : List Op) (i k : Nat) (op : Op), ops[k]? = some op →
    (b, i + k) ∉ R → op ∈ keepOps R b i ops := by
  intro ops
  induction ops with
  | nil => intro i k op h; simp at h
  | cons o ops ih =>
    intro i k op h hk
    rw [keepOps]
    cases k with
    | zero =>
      simp only [List.getElem?_cons_zero, Option.some.injEq] at h
      rw [if_neg (by simpa using hk), h]
      simp
    | succ k =>
      rw [List.getElem?_cons_succ] at h
      have := ih (i + 1) k op h (by rwa [show i + 1 + k = i + (k + 1) by omega])
      split
      · exact this
      · exact List.mem_cons_of_mem _ this

theorem rewrite_results {st : State} {q : Site} {op : Op} {x : Nat} (h : opAt f q = some op) (hx : op.result = some x)
    (hk : (q.block, q.index) ∉ st.removed) : x ∈ results (rewrite st f) := by
  obtain ⟨blk, h1, h2⟩ := opAt_some.1 h
  have h3 := keepOps_mem (R := st.removed) (b := q.block) blk.ops 0 q.index op h2 (by simpa using hk)
  have h4 : (rewrite st f)[q.block]? = some (rewriteBlock st q.block blk) := by rw [rewrite_get, h1]; rfl
  unfold results
  rw [List.mem_flatMap]
  refine ⟨_, List.mem_of_getElem? h4, ?_⟩
  unfold Block.results rewriteBlock
  rw [List.mem_filterMap]
  exact ⟨renameOp st.merged op, List.mem_map.2 ⟨op, h3, rfl⟩, hx⟩

/-- C76: an operation disappears only if it computes a place and an operation which stays does the same computation on
every path before; for the entry of a dictionary, no operation which lies on every path between the two ends a stack
region.  Partial: the last part should say that no operation on any path between the two does, which is false, see
the violation below. -/
theorem C76_entries_kept_across_regions_partial (f : Body) (hv : Valid f) (hne : f ≠ []) (hd : DefsFirst f)
    (hN : PlacesNamed f) (g : Body) (hg : eliminate f = some (some g)) (q : Site) (op : Op) (x : Nat)
    (hq : opAt f q = some op) (hx : op.result = some x) (hgone : x ∉ results g) :
    IsPlace op.kind ∧ ∃ q' op' c, opAt f q' = some op' ∧ op'.kind = op.kind ∧ op'.result = some c ∧ c ∈ results g ∧
      Before f q' q ∧ ((∃ t, op.kind = .dictEntry t) → ∀ z oz, opAt f z = some oz → EndsRegion oz.kind → Before f q' z →
        ¬ Before f z q) := by
  obtain ⟨st, h1, hG⟩ := numbering_spec hv.inRange hne hv.single hd (named_of hN)
  rcases eliminate_eq h1 with h | ⟨h, _⟩
  · rw [h] at hg; cases hg
  rw [h] at hg
  cases hg
  have hrem : (q.block, q.index) ∈ st.removed := by
    by_contra hk
    exact hgone (rewrite_results hq hx hk)
  obtain ⟨o, y, c, k1, k2, k3⟩ := (hG.removed _ _).1 hrem
  rw [hq] at k1
  cases k1
  rw [hx] at k2
  cases k2
  obtain ⟨q1, q', o1, o', j1, j2, j3, j4, j5, j6, j7, j8, j9, j10⟩ := hG.pairs x c k3
  obtain ⟨rfl, rfl⟩ := site_unique hv.single j2 hq j3 hx
  refine ⟨numberable_iff.1 j8, q', o', c, j4, congrArg Expr.kind j9, j5, ?_, j6, ?_⟩
  · refine rewrite_results j4 j5 ?_
    intro hr
    obtain ⟨o2, y, c', k1, k2, k4⟩ := (hG.removed _ _).1 hr
    rw [j4] at k1
    cases k1
    rw [j5] at k2
    cases k2
    exact hG.final x c k3 c' k4
  · rintro ⟨t, ht⟩ z oz k1 k2 k4
    exact j10 (by rw [ht]; rfl) z oz k1 (pops_iff.2 k2) k4

/-! ### Helpers for concrete bodies -/

theorem defsFirst_of_sites (h4 : ∀ p ∈ sites f, ∀ r, Value.register r ∈ p.1.operands → ∀ q ∈ sites f, q.1.result = some r →
      Before f q.2 p.2)
    (h5 : ∀ (b : Nat) (blk : Block) (r : Nat), f[b]? = some blk → Value.register r ∈ blk.term.operands →
      ∀ q ∈ sites f, q.1.result = some r → Before f q.2 ⟨b, blk.ops.length⟩) : DefsFirst f := by
  refine ⟨?_, ?_⟩
  · intro p op r hp hr d op' hd hres
    exact h4 _ (mem_sites.2 hp) r hr _ (mem_sites.2 hd) hres
  · intro b blk r hb hr d op' hd hres
    exact h5 b blk r hb hr _ (mem_sites.2 hd) hres

/-! ### A loop with two breaks -/

/-- `loop { if a.m() { break }; if b { break } }; a.m()` in a generic function: the entry `m` of the dictionary 0 is looked
up in the head of the loop (block 1) and after it (block 2); each iteration and each break frees the stack cells made
in the iteration. -/
def twoBreaks : Body :=
  [ { ops := [⟨some 0, .alloca 0, []⟩, ⟨some 1, .stackSave, []⟩], term := .goto 1 },
    { ops := [⟨some 2, .dictEntry 0, [.dictionary 0]⟩, ⟨none, .call 0 0, [.register 2, .register 0]⟩],
      term := .condBr (.constant (.bool true)) 3 4 },
    { ops := [⟨some 3, .dictEntry 0, [.dictionary 0]⟩, ⟨none, .call 0 0, [.register 3, .register 0]⟩], term := .ret },
    { ops := [⟨none, .stackRestore, [.register 1]⟩], term := .goto 2 },
    { ops := [], term := .condBr (.constant (.bool true)) 5 6 },
    { ops := [⟨none, .stackRestore, [.register 1]⟩], term := .goto 2 },
    { ops := [⟨none, .stackRestore, [.register 1]⟩], term := .goto 1 } ]

/-- What the pass makes of it: the call after the loop uses the entry looked up in the loop. -/
def twoBreaksMerged : Body :=
  [ { ops := [⟨some 0, .alloca 0, []⟩, ⟨some 1, .stackSave, []⟩], term := .goto 1 },
    { ops := [⟨some 2, .dictEntry 0, [.dictionary 0]⟩, ⟨none, .call 0 0, [.register 2, .register 0]⟩],
      term := .condBr (.constant (.bool true)) 3 4 },
    { ops := [⟨none, .call 0 0, [.register 2, .register 0]⟩], term := .ret },
    { ops := [⟨none, .stackRestore, [.register 1]⟩], term := .goto 2 },
    { ops := [], term := .condBr (.constant (.bool true)) 5 6 },
    { ops := [⟨none, .stackRestore, [.register 1]⟩], term := .goto 2 },
    { ops := [⟨none, .stackRestore, [.register 1]⟩], term := .goto 1 } ]

theorem twoBreaks_dom0 (n : Nat) : Dominates (graphOf twoBreaks) 0 0 n := by
  rintro p ⟨h, _⟩
  exact List.mem_of_head? h

theorem twoBreaks_dom1 {n : Nat} (hn : n ≠ 0) : Dominates (graphOf twoBreaks) 0 1 n := by
  rintro p ⟨h1, h2, h3⟩
  match p, h1, h2, h3 with
  | [x], h1, h2, _ =>
    simp only [List.head?_cons, Option.some.injEq] at h1
    simp only [List.getLast?_singleton, Option.some.injEq] at h2
    omega
  | x :: y :: p, h1, _, h3 =>
    simp only [List.head?_cons, Option.some.injEq] at h1
    subst h1
    rw [List.isChain_cons_cons] at h3
    obtain ⟨⟨l, hl, hy⟩, _⟩ := h3
    cases hl
    simp [Term.successors] at hy
    simp [hy]

theorem twoBreaks_paths : IsPath (graphOf twoBreaks) 0 1 [0, 1] ∧ IsPath (graphOf twoBreaks) 0 2 [0, 1, 3, 2] ∧
    IsPath (graphOf twoBreaks) 0 2 [0, 1, 4, 5, 2] ∧ IsPath (graphOf twoBreaks) 0 3 [0, 1, 3] ∧
    IsPath (graphOf twoBreaks) 0 4 [0, 1, 4] ∧ IsPath (graphOf twoBreaks) 0 5 [0, 1, 4, 5] ∧
    IsPath (graphOf twoBreaks) 0 6 [0, 1, 4, 6] := by
  simp [IsPath, Graph.Edge, graphOf, twoBreaks, Term.successors]

theorem twoBreaks_valid : Valid twoBreaks := by
  refine ⟨inRange_of (by decide), ⟨by decide, ?_⟩, ?_⟩
  · intro b hb
    simp only [twoBreaks, List.mem_cons, List.not_mem_nil, or_false] at hb
    rcases hb with rfl | rfl | rfl | rfl | rfl | rfl | rfl <;> simp
  · intro b hb op hop hk
    simp only [twoBreaks, List.mem_cons, List.not_mem_nil, or_false] at hb
    rcases hb with rfl | rfl | rfl | rfl | rfl | rfl | rfl <;> simp at hop
    all_goals first
      | (rcases hop with rfl | rfl <;> cases hk)
      | (subst hop; cases hk)

theorem twoBreaks_defs : DefsFirst twoBreaks := by
  apply defsFirst_of_sites
  · intro p hp r hr q hq hres
    simp [sites, twoBreaks, blockSites] at hp hq
    rcases hp with rfl | rfl | rfl | rfl | rfl | rfl | rfl | rfl | rfl <;> simp at hr <;>
      rcases hq with rfl | rfl | rfl | rfl | rfl | rfl | rfl | rfl | rfl <;> simp at hres <;>
      first
      | (exact Or.inl ⟨rfl, by decide⟩)
      | (exact Or.inr ⟨by decide, twoBreaks_dom0 _⟩)
      | (exfalso; omega)
  · intro b blk r hb hr q hq hres
    rcases b with _ | _ | _ | _ | _ | _ | _ | b
    all_goals first
      | (cases hb; simp [Term.operands] at hr; done)
      | (simp [twoBreaks] at hb)

theorem twoBreaks_named : PlacesNamed twoBreaks := by
  intro b hb op hop hp
  rw [← numberable_iff] at hp
  simp only [twoBreaks, List.mem_cons, List.not_mem_nil, or_false] at hb
  rcases hb with rfl | rfl | rfl | rfl | rfl | rfl | rfl <;> simp at hop
  all_goals first
    | (rcases hop with rfl | rfl <;> first | exact ⟨_, rfl⟩ | cases hp)
    | (subst hop; cases hp)

theorem twoBreaks_ordered : Ordered twoBreaks := by
  obtain ⟨p1, p2, p2', p3, p4, p5, p6⟩ := twoBreaks_paths
  intro a b hb hdom
  have hlt := reachable_lt (inRange_of (by decide)) (by simp [twoBreaks]) hb
  rcases b with _ | _ | _ | _ | _ | _ | _ | b
  · have := hdom [0] (by simp [IsPath])
    simp at this; omega
  · have := hdom _ p1; simp at this; omega
  · have := hdom _ p2; have := hdom _ p2'; simp at *; omega
  · have := hdom _ p3; simp at this; omega
  · have := hdom _ p4; simp at this; omega
  · have := hdom _ p5; simp at this; omega
  · have := hdom _ p6; simp at this; omega
  · simp [twoBreaks] at hlt; omega

theorem twoBreaks_site {q : Site} {op : Op} (h : opAt twoBreaks q = some op) (hn : numberable op.kind = true) :
    (q = ⟨1, 0⟩ ∧ op = ⟨some 2, .dictEntry 0, [.dictionary 0]⟩) ∨ (q = ⟨2, 0⟩ ∧ op = ⟨some 3, .dictEntry 0, [.dictionary 0]⟩) := by
  have := mem_sites.2 h
  simp [sites, twoBreaks, blockSites] at this
  rcases this with h | h | h | h | h | h | h | h | h <;> obtain ⟨rfl, rfl⟩ := h <;> simp [numberable] at hn ⊢

theorem twoBreaks_pop {q : Site} {op : Op} (h : opAt twoBreaks q = some op) (hn : pops op.kind = true) :
    q = ⟨3, 0⟩ ∨ q = ⟨5, 0⟩ ∨ q = ⟨6, 0⟩ := by
  have := mem_sites.2 h
  simp [sites, twoBreaks, blockSites] at this
  rcases this with h | h | h | h | h | h | h | h | h <;> obtain ⟨rfl, rfl⟩ := h <;> simp [pops] at hn ⊢

theorem twoBreaks_eliminate : eliminate twoBreaks = some (some twoBreaksMerged) := by
  obtain ⟨p1, p2, p2', p3, p4, p5, p6⟩ := twoBreaks_paths
  obtain ⟨st, h1, hG⟩ := numbering_spec twoBreaks_valid.inRange (by simp [twoBreaks]) twoBreaks_valid.single twoBreaks_defs
    (named_of twoBreaks_named)
  have hM : ∀ x c, (x, c) ∈ st.merged → x = 3 ∧ c = 2 := by
    intro x c hx
    obtain ⟨q, q', o, o', j1, j2, j3, j4, j5, j6, j7, j8, j9, j10⟩ := hG.pairs x c hx
    have hk : o'.kind = o.kind := congrArg Expr.kind j9
    rcases twoBreaks_site j2 j8 with ⟨rfl, rfl⟩ | ⟨rfl, rfl⟩ <;>
      rcases twoBreaks_site j4 (by rw [hk]; exact j8) with ⟨rfl, rfl⟩ | ⟨rfl, rfl⟩
    · exact absurd j6 (Negation.before_irrefl _)
    · simp at j7
    · simp only [Option.some.injEq] at j3 j5
      exact ⟨j3.symm, j5.symm⟩
    · exact absurd j6 (Negation.before_irrefl _)
  have hE : (3, 2) ∈ st.merged := by
    by_contra hno
    refine hG.complete twoBreaks_ordered ⟨2, 0⟩ _ ?_ rfl rfl ?_ ⟨1, 0⟩ ⟨some 2, .dictEntry 0, [.dictionary 0]⟩ rfl
      (Or.inr ⟨by decide, twoBreaks_dom1 (by decide)⟩) ?_ rfl
    · exact .head (b := 1) ⟨_, rfl, by simp [Term.successors]⟩ (.head (b := 3) ⟨_, rfl, by simp [Term.successors]⟩
        (.single ⟨_, rfl, by simp [Term.successors]⟩))
    · intro x c hx hc
      obtain ⟨rfl, rfl⟩ := hM x c hc
      exact hno hc
    · intro _ z oz k1 k2 k3 k4
      rcases k4 with ⟨_, k4⟩ | ⟨_, k4⟩
      · simp at k4
      · rcases twoBreaks_pop k1 k2 with rfl | rfl | rfl
        · have := k4 _ p2'; simp at this
        · have := k4 _ p2; simp at this
        · have := k4 _ p2; simp at this
  have hl3 : st.merged.lookup 3 = some 2 := by
    cases hl : st.merged.lookup 3 with
    | none =>
      have := List.lookup_eq_none_iff.1 hl _ hE
      simp at this
    | some c => rw [(hM 3 c (lookup_mem hl)).2]
  have hl : ∀ r, r ≠ 3 → st.merged.lookup r = none := by
    intro r hr
    cases hl : st.merged.lookup r with
    | none => rfl
    | some c => exact absurd (hM r c (lookup_mem hl)).1 hr
  have hR : ∀ b i, (b, i) ∈ st.removed ↔ b = 2 ∧ i = 0 := by
    intro b i
    rw [hG.removed]
    constructor
    · rintro ⟨o, x, c, k1, k2, k3⟩
      obtain ⟨rfl, rfl⟩ := hM x c k3
      obtain ⟨e, _⟩ := site_unique twoBreaks_valid.single k1
        (show opAt twoBreaks ⟨2, 0⟩ = some ⟨some 3, .dictEntry 0, [.dictionary 0]⟩ from rfl) k2 rfl
      cases e
      exact ⟨rfl, rfl⟩
    · rintro ⟨rfl, rfl⟩
      exact ⟨_, 3, 2, rfl, rfl, hE⟩
  have hrw : rewrite st twoBreaks = twoBreaksMerged := by
    simp [rewrite, twoBreaks, twoBreaksMerged, rewriteBlock, keepOps, hR, renameOp, renameTerm, canon, hl3, hl]
  rcases eliminate_eq h1 with h | ⟨h, _⟩
  · exfalso
    unfold eliminate at h
    rw [if_pos (by decide), h1] at h
    simp only [Option.map_some, Option.some.injEq] at h
    have hne : st.merged ≠ [] := by intro e; rw [e] at hE; cases hE
    rw [if_neg hne] at h
    cases h
  · rw [h, hrw]

/-- A world in which an address computation adds its arguments. -/
def placeWorld : World (Bool ⊕ Nat) (List Nat) :=
  { demo with
    exec := fun kind args w =>
      match kind with
      | .subfield d => .ok w (some (.inr (d + (demoLog args).sum))) none
      | .dictEntry d => .ok w (some (.inr (d + (demoLog args).sum))) none
      | .call _ _ => .ok (demoLog args ++ w) none (some (.inr 0))
      | kind => demo.exec kind args w }

/-- The hypotheses of the theorems hold of the loop with two breaks in a world in which entries are not in stack cells,
and the pass changes the loop. -/
example : Valid twoBreaks ∧ twoBreaks ≠ [] ∧ DefsFirst twoBreaks ∧ PlacesNamed twoBreaks ∧ Ordered twoBreaks ∧
    eliminate twoBreaks = some (some twoBreaksMerged) ∧ PureAddresses placeWorld twoBreaks ∧ Safe placeWorld twoBreaks [] ∧
    3 ∉ results twoBreaksMerged := by
  refine ⟨twoBreaks_valid, by simp [twoBreaks], twoBreaks_defs, twoBreaks_named, twoBreaks_ordered, twoBreaks_eliminate, ?_,
    safe_of_run (N := 11) (x := .returned [7, 0, 7]) (by rfl) (by simp), by decide⟩
  intro b hb op hop hp
  rcases hp with ⟨d, hd⟩ | ⟨d, hd⟩ <;> exact ⟨fun vs => .inr (d + (demoLog (vs.map .value)).sum), fun vs w => by rw [hd]; rfl⟩

/-! ### Violation -/

/-- The stack cells of the reference interpreter: an entry of a dictionary is put into a new cell, a restore removes the cells
made since the marker, and a call through a cell which does not exist ends the execution.  The state is the number of
cells and a log of the calls. -/
def cellWorld : World (Bool ⊕ Nat) (Nat × List Nat) where
  bool := .inl
  asBool
    | .inl b => some b
    | .inr _ => none
  asBool_bool _ := rfl
  bool_of_asBool v b h := by cases v <;> simp_all
  lit := .inr
  fixed _ := .inr 7
  compare v v' _ := some (.inl (decide (v = v')))
  compare_bool a b w := by cases a <;> cases b <;> rfl
  expose _ w := (.inr w.1, (w.1 + 1, w.2))
  consume _ w := w
  exec kind args w :=
    match kind, args with
    | .alloca _, _ => .ok w none none
    | .dictEntry _, _ => .ok (w.1 + 1, w.2) (some (.inr w.1)) none
    | .stackSave, _ => .ok w (some (.inr w.1)) none
    | .stackRestore, [.value (.inr n)] => .ok (min n w.1, w.2) none none
    | .call _ _, .value (.inr n) :: _ => if n < w.1 then .ok (w.1, 1 :: w.2) none (some (.inl true)) else .halt w
    | _, _ => .ok w none none
  yield _ w := some w

/-- C76, violated (finding F46): a loop with two breaks, in a world in which entries of dictionaries live in stack
cells; the original makes both calls, the result of the pass dies at the second. -/
theorem C76_entries_across_regions_violated : ∃ f g, Valid f ∧ f ≠ [] ∧ DefsFirst f ∧ PlacesNamed f ∧ Ordered f ∧
    eliminate f = some (some g) ∧ Safe cellWorld f (0, []) ∧ Ends cellWorld f (0, []) (.returned (1, [1, 1])) ∧
    Ends cellWorld g (0, []) (.halted (0, [1])) := by
  have hrun : run cellWorld twoBreaks 11 (start twoBreaks (0, [])) = .done (.returned (1, [1, 1])) := by rfl
  exact ⟨twoBreaks, twoBreaksMerged, twoBreaks_valid, by simp [twoBreaks], twoBreaks_defs, twoBreaks_named, twoBreaks_ordered,
    twoBreaks_eliminate, safe_of_run hrun (by simp), ⟨11, hrun⟩, ⟨11, by rfl⟩⟩

end Ferlium.Cse
