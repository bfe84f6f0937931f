import Verif.Proofs.TypeSummary
import Verif.Props.TypeRewrite

/-!
# C91: the free variables recorded with a type are its free variables

Whether a type is generic, whether a variable occurs in it, and whether a substitution changes it, are
answered from a set recorded when the type is stored.  The set must be exact, also for types that refer to
each other, where it is found by iteration.
-/

namespace Ferlium.Intern

variable {eff : Nat → List (List Nat)} {le : Kind → Kind → Bool} {V : Vars}

/-- The summaries of every table are found: the iteration for types that refer to each other ends. -/
theorem C91_found_partial {U : Universe} (hU : Built eff le U) (V : Vars) : ∃ S, Summed V U S :=
  hU.inv.grown.summed V

/-- A variable is in the summary of a type exactly when it occurs in the type, at any depth. -/
theorem C91_exact_partial {U : Universe} {S : Sums} (hS : Summed V U S) {r : Ref} {k : Kind}
    (hr : U.look r = some k) (x : FreeVar) : x ∈ S.get r ↔ Occurs V U.look x r :=
  hS.exact.iff hr x

/-- … so a type is found constant exactly when no variable occurs in it, and resolved exactly when no
variable but those of effects does. -/
theorem C91_constant_partial {U : Universe} {S : Sums} (hS : Summed V U S) {r : Ref} {k : Kind}
    (hr : U.look r = some k) :
    (S.isConstant r = true ↔ ∀ x, ¬ Occurs V U.look x r) ∧
    (S.isResolved r = true ↔ ∀ x, ¬ Occurs V U.look (.ty x) r ∧ ¬ Occurs V U.look (.mu x) r) := by
  constructor
  · simp only [Sums.isConstant, decide_eq_true_eq, Finset.eq_empty_iff_forall_notMem, C91_exact_partial hS hr]
  · simp only [Sums.isResolved, decide_eq_true_eq, C91_exact_partial hS hr]
    constructor
    · exact fun h x => ⟨fun hx => by simpa [FreeVar.isEff] using h _ hx, fun hx => by simpa [FreeVar.isEff] using h _ hx⟩
    · intro h x hx
      cases x with
      | ty x => exact absurd hx (h x).1
      | mu x => exact absurd hx (h x).2
      | eff x => rfl

/-- Recorded variables do not depend on how and in which order the types were stored. -/
theorem C91_history_partial {U U' : Universe} {S S' : Sums} (hS : Summed V U S) (hS' : Summed V U' S')
    (hx : ∀ r k, U.look r = some k → U'.look r = some k) {r : Ref} {k : Kind} (hr : U.look r = some k) :
    S.get r = S'.get r := by
  have hc := hS.exact.closed
  ext x
  rw [C91_exact_partial hS hr, C91_exact_partial hS' (hx _ _ hr)]
  refine ⟨fun h => h.ext hx, ?_⟩
  rintro ⟨s, ks, hs, hk, h⟩
  refine ⟨s, ks, hs.imp id (·.restrict hx hc hr), ?_, h⟩
  rcases hs with rfl | hs
  · rw [hx _ _ hr] at hk; rw [hr, hk]
  · obtain ⟨k', hk'⟩ := (hs.restrict hx hc hr).target hc
    rw [hx _ _ hk'] at hk; rw [hk', hk]

/-- A replacement of effects that leaves effects without the variables `effs` as they are. -/
def ReplacesOnly (V : Vars) (effs : List Nat) (me : List Nat → List Nat) : Prop :=
  ∀ l, (∀ e ∈ l, ∀ x ∈ effs, V.effVar e ≠ some x) → me l = l

theorem mapEffects_id {effs : List Nat} {me : List Nat → List Nat} (hm : ReplacesOnly V effs me) {look : Look}
    {r : Ref} {k : Kind} (hk : look r = some k) (h : ∀ x ∈ effs, ¬ Occurs V look (.eff x) r) :
    k.head.mapEffects me = k.head := by
  have key : ∀ x ∈ effs, FreeVar.eff x ∉ direct V k.head := fun x hx hd => h x hx (.here hk hd)
  simp only [mem_direct] at key
  match hh : k.head with
  | .fn muts effects =>
    simp only [hh] at key
    simp only [Head.mapEffects, Head.fn.injEq, true_and]
    exact hm _ fun e he x hx hv => key x hx ⟨e, he, hv⟩
  | .subscript muts a b =>
    simp only [hh] at key
    have hl : ∀ l, a = some l ∨ b = some l → me l = l :=
      fun l hl => hm _ fun e he x hx hv => key x hx ⟨l, hl, e, he, hv⟩
    cases a <;> cases b <;> simp_all [Head.mapEffects]
  | .named d effects =>
    simp only [hh] at key
    simp only [Head.mapEffects, Head.named.injEq, true_and]
    have hl : effects.map me = effects.map id :=
      List.map_congr_left fun l hl => hm _ fun e he x hx hv => key x hx ⟨l, hl, e, he, hv⟩
    rw [hl, List.map_id]
  | .var _ | .native _ | .variant _ | .tuple | .record _ | .never => rfl

theorem untouched_of {U : Universe} {dom : Nat → Prop} {hd : Head → Head} {r : Ref}
    (h : ∀ x, dom x → ¬ Occurs V U.look (.ty x) r)
    (he : ∀ s k, U.look s = some k → (s = r ∨ Reaches U.look r s) → hd k.head = k.head) : Untouched U.look dom hd r := by
  intro s hs k hk
  refine ⟨he s k hk hs, fun x hx hx' => h x hx' ⟨s, k, hs, hk, ?_⟩⟩
  simp [hx]

/-- **Instantiation with recorded variables**: types whose summary does not contain variables to replace
are returned as they are, and the result is the same as with a full walk. -/
theorem C91_instantiated_partial {order : List Nat → List Nat} (ho : ∀ l, (order l).Perm l) {U : Universe}
    (hU : Built eff le U) (hp : PlainVars U.look) {S : Sums} (hS : Summed V U S) {tys effs : List Nat}
    {σ : Nat → Option Ref} {me : List Nat → List Nat} (htys : ∀ x, σ x ≠ none → x ∈ tys)
    (heffs : ReplacesOnly V effs me) (hσ : ∀ x g, σ x = some g → ∃ k, U.look g = some k)
    {r : Ref} {k : Kind} (hr : U.look r = some k)
    (hb : ∀ s rs', walk U (instRules U (S.affectsInst tys effs) σ me) [r] = some (s, rs') → Batch eff U s.out) :
    ∃ U' r', instantiate order le U (S.affectsInst tys effs) σ me r = some (U', [r']) ∧ Later eff le U U' ∧
      (∃ k', U'.look r' = some k') ∧
      ∀ n, Intern.unfold U'.look n r' =
        subTree U.look (fun x => (σ x).map fun g n => Intern.unfold U.look n g) (Head.mapEffects me) n r := by
  refine C89_instantiated_partial ho hU hp hσ ?_ hr hb
  intro s ks hs ha
  simp only [Sums.affectsInst, Bool.or_eq_false_iff, List.any_eq_false, decide_eq_true_eq,
    C91_exact_partial hS hs] at ha
  refine untouched_of (V := V) (fun x hx => ha.1 x (htys x hx)) ?_
  intro t kt ht hreach
  refine mapEffects_id heffs ht fun x hx ho => ha.2 x hx ?_
  obtain ⟨q, kq, hq, hkq, h⟩ := ho
  refine ⟨q, kq, ?_, hkq, h⟩
  rcases hreach with rfl | hreach
  · exact hq
  · rcases hq with rfl | hq
    · exact .inr hreach
    · exact .inr (hreach.trans hq)

/-- **Recursive equations with recorded variables.** -/
theorem C91_equation_partial {order : List Nat → List Nat} (ho : ∀ l, (order l).Perm l) {U : Universe}
    (hU : Built eff le U) (hp : PlainVars U.look) {S : Sums} (hS : Summed V U S) {x : Nat} {v root : Ref} {k : Kind}
    (hv : U.look v = some ⟨.var x, []⟩) (hroot : U.look root = some k) (hne : root ≠ v)
    (hocc : Occurs V U.look (.ty x) root)
    (hb : ∀ s rs', walk U (tieRules (S.affectsTie x) v root) [root] = some (s, rs') → Batch eff U s.out) :
    ∃ U' r', tie order le U (S.affectsTie x) v root = some (U', [r']) ∧ Later eff le U U' ∧
      (∃ k', U'.look r' = some k') ∧
      ∀ n, Intern.unfold U'.look n r' =
        subTree U.look (fun y => if y = x then some fun n => Intern.unfold U'.look n r' else none) (fun h => h) n root := by
  refine C89_equation_partial ho hU hp hv hroot hne ?_ ?_ hb
  · simpa [Sums.affectsTie] using (C91_exact_partial hS hroot _).2 hocc
  · intro s ks hs ha
    simp only [Sums.affectsTie, decide_eq_false_iff_not, C91_exact_partial hS hs] at ha
    exact untouched_of (V := V) (fun y hy => hy ▸ ha) fun _ _ _ _ => rfl

/-! ## The generic tree with two kinds of nodes -/

/-- No mutability or effect is a variable. -/
def exPlain : Vars := ⟨fun _ => none, fun _ => none⟩

def exSums : Sums :=
  ⟨[∅, {.ty 1}, {.ty 0}, ∅], [[{.ty 0, .ty 1}, {.ty 0, .ty 1}, {.ty 0, .ty 1}]]⟩

theorem exSums_of : Summed exPlain exStored exSums := by
  have h0 : Summed exPlain .new ⟨[], []⟩ := .new
  have h1 : Summed exPlain ⟨[⟨.native 0, []⟩], [], []⟩ ⟨[∅], []⟩ := h0.plain (k := ⟨.native 0, []⟩) (by simp)
  have h2 : Summed exPlain ⟨[⟨.native 0, []⟩, ⟨.var 1, []⟩], [], []⟩ ⟨[∅, {.ty 1}], []⟩ :=
    h1.plain (k := ⟨.var 1, []⟩) (by simp)
  have h3 : Summed exPlain ⟨[⟨.native 0, []⟩, ⟨.var 1, []⟩, ⟨.var 0, []⟩], [], []⟩ ⟨[∅, {.ty 1}, {.ty 0}], []⟩ :=
    h2.plain (k := ⟨.var 0, []⟩) (by simp)
  have h4 : Summed exPlain exVars ⟨[∅, {.ty 1}, {.ty 0}, ∅], []⟩ := h3.plain (k := ⟨.tuple, []⟩) (by simp)
  refine Summed.cache (Summed.group h4
    (kinds := [⟨.variant ["Leaf", "Left", "Right"], [.glob 0 3, .glob 1 2, .glob 1 1]⟩,
      ⟨.tuple, [.glob 0 1, .glob 1 0]⟩, ⟨.tuple, [.glob 0 2, .glob 1 0]⟩]) ?_ (by decide +kernel))
  simp [Universe.look, Universe.world, exVars]

/-- Both variables occur in all three types of the group, though two of them mention only one. -/
example : Occurs exPlain exStored.look (.ty 1) (.glob 1 2) ∧ ¬ Occurs exPlain exStored.look (.ty 2) (.glob 1 2) := by
  rw [← C91_exact_partial exSums_of (k := ⟨.tuple, [.glob 0 2, .glob 1 0]⟩) rfl,
    ← C91_exact_partial exSums_of (k := ⟨.tuple, [.glob 0 2, .glob 1 0]⟩) rfl]
  decide +kernel

/-- Instantiating the tree with `A = int`. -/
example : ∃ U' r', instantiate id exLe2 exStored (exSums.affectsInst [0] []) (fun x => if x = 0 then some (.glob 0 0) else none)
      id (.glob 1 0) = some (U', [r']) ∧ Later (fun _ => []) exLe2 exStored U' ∧ (∃ k', U'.look r' = some k') ∧
    ∀ n, Intern.unfold U'.look n r' = subTree exStored.look (fun x => (if x = 0 then some (Ref.glob 0 0) else none).map
      fun g n => Intern.unfold exStored.look n g) (Head.mapEffects id) n (.glob 1 0) := by
  refine C91_instantiated_partial (fun l => .refl l) (exStored_built _) exStored_plainVars exSums_of ?_
    (fun _ _ => rfl) ?_ (k := ⟨.variant ["Leaf", "Left", "Right"], [.glob 0 3, .glob 1 2, .glob 1 1]⟩) rfl ?_
  · intro x hx
    simp only [ne_eq, ite_eq_right_iff, reduceCtorEq, imp_false, Decidable.not_not] at hx
    simp [hx]
  · intro x g hg
    split at hg
    · cases hg; exact ⟨⟨.native 0, []⟩, rfl⟩
    · cases hg
  · intro s rs' hw
    have e : walk exStored (instRules exStored (exSums.affectsInst [0] []) (fun x => if x = 0 then some (.glob 0 0) else none) id)
      [.glob 1 0] = some (⟨exTree 0 1, [(.glob 1 1, 2), (.glob 1 2, 1), (.glob 1 0, 0)]⟩, [.loc 0]) := by decide +kernel
    cases e.symm.trans hw
    exact exTree_batch _ (ha := .native 0) (hb := .var 1) rfl rfl rfl (by simp)

/-- A table with the equation of lists. -/
def exSums2 : Sums := ⟨[∅, ∅, {.ty 0}, {.ty 0}, {.ty 0}], []⟩

theorem exSums2_of : Summed exPlain exEquation exSums2 := by
  have h1 : Summed exPlain ⟨[⟨.native 0, []⟩], [], []⟩ ⟨[∅], []⟩ := Summed.new.plain (k := ⟨.native 0, []⟩) (by simp)
  have h2 : Summed exPlain ⟨[⟨.native 0, []⟩, ⟨.tuple, []⟩], [], []⟩ ⟨[∅, ∅], []⟩ :=
    h1.plain (k := ⟨.tuple, []⟩) (by simp)
  have h3 : Summed exPlain ⟨[⟨.native 0, []⟩, ⟨.tuple, []⟩, ⟨.var 0, []⟩], [], []⟩ ⟨[∅, ∅, {.ty 0}], []⟩ :=
    h2.plain (k := ⟨.var 0, []⟩) (by simp)
  have h4 := h3.plain (k := ⟨.tuple, [.glob 0 0, .glob 0 2]⟩) (by simp [Universe.look, Universe.world])
  have e4 : collect exPlain (Sums.get ⟨[∅, ∅, {.ty 0}], []⟩) ⟨.tuple, [.glob 0 0, .glob 0 2]⟩ = {.ty 0} := by decide +kernel
  rw [e4] at h4
  have h5 := h4.plain (k := ⟨.variant ["Cons", "Nil"], [.glob 0 3, .glob 0 1]⟩) (by simp [Universe.look, Universe.world])
  have e5 : collect exPlain (Sums.get ⟨[∅, ∅, {.ty 0}] ++ [{.ty 0}], []⟩) ⟨.variant ["Cons", "Nil"], [.glob 0 3, .glob 0 1]⟩ =
    {.ty 0} := by decide +kernel
  rw [e5] at h5
  exact h5

example : ∃ U' r', tie id exLe exEquation (exSums2.affectsTie 0) (.glob 0 2) (.glob 0 4) = some (U', [r']) ∧
    Later (fun _ => []) exLe exEquation U' ∧ (∃ k', U'.look r' = some k') ∧
    ∀ n, Intern.unfold U'.look n r' = subTree exEquation.look
      (fun y => if y = 0 then some fun n => Intern.unfold U'.look n r' else none) (fun h => h) n (.glob 0 4) := by
  refine C91_equation_partial (fun l => .refl l) (exEquation_built _) ?_ exSums2_of (x := 0) (v := .glob 0 2)
    (root := .glob 0 4) rfl (k := ⟨.variant ["Cons", "Nil"], [.glob 0 3, .glob 0 1]⟩) rfl (by simp) ?_ ?_
  · intro r x kids h
    have := valid_mem h
    simp [exEquation, recRefs, List.range_succ] at this
    rcases this with rfl | rfl | rfl | rfl | rfl <;> cases h <;> rfl
  · rw [← C91_exact_partial exSums2_of (k := ⟨.variant ["Cons", "Nil"], [.glob 0 3, .glob 0 1]⟩) rfl]
    decide +kernel
  · intro s rs' hw
    have e : walk exEquation (tieRules (exSums2.affectsTie 0) (.glob 0 2) (.glob 0 4)) [.glob 0 4] =
      some (⟨exList.map Kind.normalize, [(.glob 0 3, 1), (.glob 0 4, 0)]⟩, [.loc 0]) := by decide +kernel
    rw [e] at hw; cases hw
    exact exList_batch_in _ exEquation rfl rfl

end Ferlium.Intern
