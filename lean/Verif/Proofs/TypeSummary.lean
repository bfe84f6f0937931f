import Verif.Model.TypeSummary
import Verif.Proofs.Intern
import Mathlib.Algebra.BigOperators.Group.List.Basic
import Mathlib.Algebra.Order.BigOperators.Group.List
import Mathlib.Tactic

/-! # The summaries of a group end, and solve their equations -/

namespace Ferlium.Intern

variable {V : Vars} {S : Sums} {w : Nat} {kinds : List Kind}

theorem mem_foldl_union {α : Type} {f : α → Finset FreeVar} {x : FreeVar} : ∀ (l : List α) (s : Finset FreeVar),
    x ∈ l.foldl (fun s a => s ∪ f a) s ↔ x ∈ s ∨ ∃ a ∈ l, x ∈ f a
  | [], s => by simp
  | a :: l, s => by
    rw [List.foldl_cons, mem_foldl_union l]
    simp only [Finset.mem_union, List.mem_cons]
    constructor
    · rintro ((h | h) | ⟨b, hb, h⟩)
      · exact .inl h
      · exact .inr ⟨a, .inl rfl, h⟩
      · exact .inr ⟨b, .inr hb, h⟩
    · rintro (h | ⟨b, rfl | hb, h⟩)
      · exact .inl (.inl h)
      · exact .inl (.inr h)
      · exact .inr ⟨b, hb, h⟩

theorem mem_collect {f : Ref → Finset FreeVar} {k : Kind} {x : FreeVar} :
    x ∈ collect V f k ↔ x ∈ direct V k.head ∨ ∃ r ∈ k.kids, x ∈ f r := mem_foldl_union _ _

/-- The summary of a member. -/
def at' (ss : List (Finset FreeVar)) (i : Nat) : Finset FreeVar := (ss[i]?).getD ∅

theorem lookup_mono {ss ss' : List (Finset FreeVar)} (h : ∀ i, at' ss i ⊆ at' ss' i) (r : Ref) :
    groupLookup S w ss r ⊆ groupLookup S w ss' r := by
  cases r with
  | loc i => exact Finset.Subset.refl _
  | glob v i =>
    simp only [groupLookup]
    split
    · exact h i
    · exact Finset.Subset.refl _

theorem collect_mono {ss ss' : List (Finset FreeVar)} (h : ∀ i, at' ss i ⊆ at' ss' i) (k : Kind) :
    collect V (groupLookup S w ss) k ⊆ collect V (groupLookup S w ss') k := by
  intro x hx
  rw [mem_collect] at hx ⊢
  rcases hx with hx | ⟨r, hr, hx⟩
  · exact .inl hx
  · exact .inr ⟨r, hr, lookup_mono h r hx⟩

/-- Below what the equations give, and of the right length. -/
structure Below (V : Vars) (S : Sums) (w : Nat) (kinds : List Kind) (P : Nat → FreeVar → Prop)
    (ss : List (Finset FreeVar)) : Prop where
  len : ss.length = kinds.length
  pre : ∀ i k, kinds[i]? = some k → at' ss i ⊆ collect V (groupLookup S w ss) k
  sound : ∀ i, ∀ x ∈ at' ss i, P i x

/-- A set of occurrences that is closed under the equations. -/
def ClosedOcc (V : Vars) (S : Sums) (w : Nat) (kinds : List Kind) (P : Nat → FreeVar → Prop) : Prop :=
  ∀ (i : Nat) (k : Kind) (x : FreeVar), kinds[i]? = some k →
    (x ∈ direct V k.head ∨ ∃ r ∈ k.kids, match r with
      | .loc _ => False
      | .glob v j => if v = w then P j x else x ∈ S.get (.glob v j)) → P i x

theorem at_set {ss : List (Finset FreeVar)} {i j : Nat} (hi : i < ss.length) (new : Finset FreeVar) :
    at' (ss.set i new) j = if j = i then new else at' ss j := by
  unfold at'
  split
  · next e => subst e; simp [hi]
  · next e => rw [List.getElem?_set_ne (fun h => e h.symm)]

theorem Below.set {P : Nat → FreeVar → Prop} (hP : ClosedOcc V S w kinds P) {ss : List (Finset FreeVar)}
    (h : Below V S w kinds P ss) {i : Nat} {k : Kind} (hk : kinds[i]? = some k) :
    Below V S w kinds P (ss.set i (collect V (groupLookup S w ss) k)) ∧
      ∀ j, at' ss j ⊆ at' (ss.set i (collect V (groupLookup S w ss) k)) j := by
  have hi : i < ss.length := by rw [h.len]; exact (List.getElem?_eq_some_iff.1 hk).1
  have hle : ∀ j, at' ss j ⊆ at' (ss.set i (collect V (groupLookup S w ss) k)) j := by
    intro j
    rw [at_set hi]
    split
    · next e => subst e; exact h.pre j k hk
    · exact Finset.Subset.refl _
  refine ⟨⟨by simp [h.len], ?_, ?_⟩, hle⟩
  · intro j k' hk'
    rw [at_set hi]
    split
    · next e =>
      subst e
      rw [hk] at hk'; cases hk'
      exact collect_mono hle k
    · exact Finset.Subset.trans (h.pre j k' hk') (collect_mono hle k')
  · intro j x hx
    rw [at_set hi] at hx
    split at hx
    · next e =>
      subst e
      rw [mem_collect] at hx
      refine hP j k x hk (hx.imp id ?_)
      rintro ⟨r, hr, hxr⟩
      refine ⟨r, hr, ?_⟩
      cases r with
      | loc _ => simp [groupLookup] at hxr
      | glob v m =>
        simp only [groupLookup] at hxr ⊢
        split at hxr
        · next e => rw [if_pos e]; exact h.sound m x hxr
        · next e => rw [if_neg e]; exact hxr
    · exact h.sound j x hx

/-- The number of elements of all summaries. -/
def total (ss : List (Finset FreeVar)) : Nat := (ss.map Finset.card).sum

theorem total_set : ∀ (ss : List (Finset FreeVar)) (i : Nat) (new : Finset FreeVar), i < ss.length → at' ss i ⊂ new →
    total ss < total (ss.set i new)
  | [], i, _, hi, _ => by simp at hi
  | s :: ss, 0, new, _, h => by
    have : s ⊂ new := by simpa [at'] using h
    have := Finset.card_lt_card this
    simp only [total, List.set_cons_zero, List.map_cons, List.sum_cons]; omega
  | s :: ss, i + 1, new, hi, h => by
    have := total_set ss i new (by simpa using hi) (by simpa [at'] using h)
    simp only [total, List.set_cons_succ, List.map_cons, List.sum_cons] at this ⊢; omega

theorem sweep_spec {P : Nat → FreeVar → Prop} (hP : ClosedOcc V S w kinds P) :
    ∀ (is : List Nat) (ss : List (Finset FreeVar)) (changed : Bool), Below V S w kinds P ss →
      Below V S w kinds P (sweep V S w kinds is (ss, changed)).1 ∧
      total ss ≤ total (sweep V S w kinds is (ss, changed)).1 ∧
      (changed = true → (sweep V S w kinds is (ss, changed)).2 = true) ∧
      ((sweep V S w kinds is (ss, changed)).2 = true → changed = false →
        total ss < total (sweep V S w kinds is (ss, changed)).1) ∧
      ((sweep V S w kinds is (ss, changed)).2 = false → (sweep V S w kinds is (ss, changed)).1 = ss ∧
        ∀ i ∈ is, ∀ k, kinds[i]? = some k → collect V (groupLookup S w ss) k = at' ss i)
  | [], ss, changed, h => by
    refine ⟨h, Nat.le_refl _, fun h => h, ?_, fun _ => ⟨rfl, by simp⟩⟩
    intro h1 h2
    rw [sweep] at h1
    simp only at h1
    rw [h1] at h2; cases h2
  | i :: is, ss, changed, h => by
    rw [sweep]
    match hk : kinds[i]? with
    | none =>
      simp only
      obtain ⟨h1, h2, h3, h4, h5⟩ := sweep_spec hP is ss changed h
      refine ⟨h1, h2, h3, h4, fun hf => ⟨(h5 hf).1, fun j hj k hk' => ?_⟩⟩
      rcases List.mem_cons.1 hj with rfl | hj
      · rw [hk] at hk'; cases hk'
      · exact (h5 hf).2 j hj k hk'
    | some k =>
      simp only
      split
      · next heq =>
        obtain ⟨h1, h2, h3, h4, h5⟩ := sweep_spec hP is ss changed h
        refine ⟨h1, h2, h3, h4, fun hf => ⟨(h5 hf).1, fun j hj k' hk' => ?_⟩⟩
        rcases List.mem_cons.1 hj with rfl | hj
        · rw [hk] at hk'; cases hk'; exact heq
        · exact (h5 hf).2 j hj k' hk'
      · next hne =>
        have hi : i < ss.length := by rw [h.len]; exact (List.getElem?_eq_some_iff.1 hk).1
        have hlt : total ss < total (ss.set i (collect V (groupLookup S w ss) k)) := by
          refine total_set ss i _ hi ?_
          exact Finset.ssubset_iff_subset_ne.2 ⟨h.pre i k hk, fun e => hne e.symm⟩
        obtain ⟨h1, h2, h3, h4, h5⟩ := sweep_spec hP is (ss.set i (collect V (groupLookup S w ss) k)) true (h.set hP hk).1
        refine ⟨h1, by omega, fun _ => h3 rfl, fun _ _ => by omega, fun hf => ?_⟩
        rw [h3 rfl] at hf; cases hf

/-- The equations. -/
def Solved (V : Vars) (S : Sums) (w : Nat) (kinds : List Kind) (ss : List (Finset FreeVar)) : Prop :=
  ∀ (i : Nat) (k : Kind), kinds[i]? = some k → collect V (groupLookup S w ss) k = at' ss i

theorem sweeps_spec {P : Nat → FreeVar → Prop} (hP : ClosedOcc V S w kinds P) :
    ∀ (n : Nat) (ss ss' : List (Finset FreeVar)), Below V S w kinds P ss → sweeps V S w kinds n ss = some ss' →
      Below V S w kinds P ss' ∧ Solved V S w kinds ss'
  | 0, _, _, _, h => by simp [sweeps] at h
  | n + 1, ss, ss', hb, h => by
    rw [sweeps] at h
    obtain ⟨h1, _, _, _, h5⟩ := sweep_spec hP (List.range kinds.length) ss false hb
    match hs : sweep V S w kinds (List.range kinds.length) (ss, false) with
    | (s1, true) =>
      simp only [hs] at h h1
      exact sweeps_spec hP n s1 ss' h1 h
    | (s1, false) =>
      simp only [hs, Option.some.injEq] at h h1 h5
      subst h
      obtain ⟨rfl, h6⟩ := h5 trivial
      exact ⟨h1, fun i k hk => h6 i (List.mem_range.2 (List.getElem?_eq_some_iff.1 hk).1) k hk⟩

theorem total_le {ss : List (Finset FreeVar)} {B : Finset FreeVar} (h : ∀ i, at' ss i ⊆ B) :
    total ss ≤ ss.length * B.card := by
  unfold total
  have : ∀ c ∈ ss.map Finset.card, c ≤ B.card := by
    intro c hc
    obtain ⟨s, hs, rfl⟩ := List.mem_map.1 hc
    obtain ⟨i, hi, rfl⟩ := List.mem_iff_getElem.1 hs
    have := h i
    simp only [at', List.getElem?_eq_getElem hi, Option.getD_some] at this
    exact Finset.card_le_card this
  simpa using List.sum_le_card_nsmul _ _ this

theorem sweeps_total {P : Nat → FreeVar → Prop} (hP : ClosedOcc V S w kinds P) {B : Finset FreeVar}
    (hB : ∀ i x, P i x → x ∈ B) : ∀ (n : Nat) (ss : List (Finset FreeVar)), Below V S w kinds P ss →
      kinds.length * B.card + 1 ≤ n + total ss → ∃ ss', sweeps V S w kinds n ss = some ss'
  | 0, ss, h, hn => by
    have := total_le (ss := ss) (B := B) fun i x hx => hB i x (h.sound i x hx)
    rw [h.len] at this; omega
  | n + 1, ss, h, hn => by
    rw [sweeps]
    obtain ⟨h1, _, _, h4, _⟩ := sweep_spec hP (List.range kinds.length) ss false h
    match hs : sweep V S w kinds (List.range kinds.length) (ss, false) with
    | (s1, true) =>
      simp only [hs] at h1 h4 ⊢
      have := h4 trivial trivial
      exact sweeps_total hP hB n s1 h1 (by omega)
    | (s1, false) => exact ⟨s1, rfl⟩

theorem below_start (P : Nat → FreeVar → Prop) : Below V S w kinds P (List.replicate kinds.length ∅) := by
  have : ∀ i, at' (List.replicate kinds.length ∅) i = ∅ := by
    intro i
    unfold at'
    rw [List.getElem?_replicate]
    split <;> rfl
  exact ⟨by simp, fun i k _ => by rw [this]; exact Finset.empty_subset _, fun i x hx => by rw [this] at hx; simp at hx⟩

/-- The summaries of a group are found. -/
theorem groupSums_total (V : Vars) (S : Sums) (w : Nat) (kinds : List Kind) : ∃ ss, groupSums V S w kinds = some ss := by
  refine sweeps_total (P := fun _ x => x ∈ groupVars V S w kinds) ?_ (fun _ _ h => h) _ _ (below_start _) (by omega)
  intro i k x hk hx
  rcases hx with hx | ⟨r, hr, hx⟩
  · exact (mem_foldl_union _ _).2 (.inr ⟨k, List.mem_of_getElem? hk, mem_collect.2 (.inl hx)⟩)
  · cases r with
    | loc _ => exact hx.elim
    | glob v j =>
      simp only at hx
      split at hx
      · exact hx
      · next e =>
        refine (mem_foldl_union _ _).2 (.inr ⟨k, List.mem_of_getElem? hk, mem_collect.2 (.inr ⟨_, hr, ?_⟩)⟩)
        simp only [groupLookup, if_neg e]
        exact hx

/-- They solve the equations, and contain nothing else. -/
theorem groupSums_spec {ss : List (Finset FreeVar)} (h : groupSums V S w kinds = some ss) :
    Solved V S w kinds ss ∧ ss.length = kinds.length ∧
      ∀ P : Nat → FreeVar → Prop, ClosedOcc V S w kinds P → ∀ i, ∀ x ∈ at' ss i, P i x := by
  have h0 := sweeps_spec (P := fun _ _ => True) (fun _ _ _ _ _ => trivial) _ _ _ (below_start _) h
  exact ⟨h0.2, h0.1.len, fun P hP => (sweeps_spec hP _ _ _ (below_start P) h).1.sound⟩

/-! ## The table -/

theorem mem_direct {k : Kind} {x : FreeVar} : x ∈ direct V k.head ↔
    match k.head, x with
    | .var y, .ty z => y = z
    | .fn muts _, .mu z => ∃ m ∈ muts, V.mutVar m = some z
    | .fn _ effects, .eff z => ∃ e ∈ effects, V.effVar e = some z
    | .subscript muts _ _, .mu z => ∃ m ∈ muts, V.mutVar m = some z
    | .subscript _ a b, .eff z => ∃ l, (a = some l ∨ b = some l) ∧ ∃ e ∈ l, V.effVar e = some z
    | .named _ effects, .eff z => ∃ l ∈ effects, ∃ e ∈ l, V.effVar e = some z
    | _, _ => False := by
  cases k.head with
  | var y => cases x <;> simp [direct, eq_comm]
  | fn muts effects => cases x <;> simp [direct, Vars.muts, Vars.effs]
  | subscript muts a b =>
    cases x with
    | ty _ => simp [direct, Vars.muts, Vars.effs]
    | mu _ => simp [direct, Vars.muts, Vars.effs]
    | eff z => cases a <;> cases b <;> simp [direct, Vars.muts, Vars.effs, or_and_right, exists_or, eq_comm]
  | named d effects => cases x <;> simp [direct, Vars.effs]
  | _ => simp [direct]

theorem Occurs.here {look : Look} {r : Ref} {k : Kind} {x : FreeVar} (hk : look r = some k)
    (hx : x ∈ direct V k.head) : Occurs V look x r := ⟨r, k, .inl rfl, hk, mem_direct.1 hx⟩

theorem Occurs.kid {look : Look} {r s : Ref} {x : FreeVar} (hu : Uses look r s) (h : Occurs V look x s) :
    Occurs V look x r := by
  obtain ⟨t, k, ht, hk, hx⟩ := h
  refine ⟨t, k, .inr ?_, hk, hx⟩
  rcases ht with rfl | ht
  · exact .one hu
  · exact (Reaches.one hu).trans ht

theorem Occurs.ext {look look' : Look} (he : Ext look look') {r : Ref} {x : FreeVar} (h : Occurs V look x r) :
    Occurs V look' x r := by
  obtain ⟨t, k, ht, hk, hx⟩ := h
  exact ⟨t, k, ht.imp id (·.ext he), he _ _ hk, hx⟩

/-- Summaries solve the equations of all types, and every member occurs. -/
structure Exact (V : Vars) (U : Universe) (S : Sums) : Prop where
  main : S.main.length = U.main.length
  recs : S.recs.length = U.recs.length
  worlds : ∀ w : Nat, ((S.recs[w]?).getD []).length = ((U.recs[w]?).getD []).length
  solved : ∀ r k, U.look r = some k → ∀ x, x ∈ S.get r ↔ x ∈ direct V k.head ∨ ∃ s ∈ k.kids, x ∈ S.get s
  sound : ∀ r k, U.look r = some k → ∀ x ∈ S.get r, Occurs V U.look x r
  closed : Closed U.look

theorem Exact.plain {U : Universe} {S : Sums} (h : Exact V U S) {k : Kind}
    (hk : ∀ r ∈ k.kids, ∃ k', U.look r = some k') :
    Exact V { U with main := U.main ++ [k] } ⟨S.main ++ [collect V S.get k], S.recs⟩ := by
  generalize hU : ({ U with main := U.main ++ [k] } : Universe) = U'
  generalize hS : (⟨S.main ++ [collect V S.get k], S.recs⟩ : Sums) = S'
  have hext : Ext U.look U'.look := by
    subst hU
    intro r k' hk'
    match r with
    | .loc i => cases hk'
    | .glob 0 i =>
      simp only [Universe.look, Universe.world] at hk' ⊢
      rw [List.getElem?_append_left (List.getElem?_eq_some_iff.1 hk').1]; exact hk'
    | .glob (w + 1) i => exact hk'
  have hget : ∀ r k', U.look r = some k' → S'.get r = S.get r := by
    subst hS
    intro r k' hk'
    match r with
    | .loc i => cases hk'
    | .glob 0 i =>
      simp only [Universe.look, Universe.world] at hk'
      have hi : i < S.main.length := by rw [h.main]; exact (List.getElem?_eq_some_iff.1 hk').1
      simp only [Sums.get]
      rw [List.getElem?_append_left hi]
    | .glob (w + 1) i => rfl
  have hnew : ∀ r k', U.look r = none → U'.look r = some k' →
      k' = k ∧ S'.get r = collect V S.get k := by
    subst hU; subst hS
    intro r k' h1 h2
    match r with
    | .loc i => cases h2
    | .glob 0 i =>
      simp only [Universe.look, Universe.world] at h1 h2
      have hi : U.main.length ≤ i := List.getElem?_eq_none_iff.1 h1
      have hi2 := (List.getElem?_eq_some_iff.1 h2).1
      simp only [List.length_append, List.length_cons, List.length_nil] at hi2
      have : i = U.main.length := by omega
      subst this
      simp only [List.getElem?_concat_length, Option.some.injEq] at h2
      simp [Sums.get, ← h.main, h2]
    | .glob (w + 1) i =>
      simp only [Universe.look, Universe.world] at h1 h2
      rw [h1] at h2; cases h2
  have hclosed : Closed U'.look := by
    intro r k' hk' s hs
    match hr : U.look r with
    | none => obtain ⟨rfl, _⟩ := hnew r k' hr hk'; exact (hk s hs).imp fun _ h => hext _ _ h
    | some k0 =>
      rw [hext _ _ hr] at hk'; cases hk'
      exact (h.closed _ _ hr s hs).imp fun _ h => hext _ _ h
  have hsolved : ∀ r k, U'.look r = some k → ∀ x, x ∈ S'.get r ↔ x ∈ direct V k.head ∨ ∃ s ∈ k.kids, x ∈ S'.get s := by
    intro r k' hk' x
    match hr : U.look r with
    | none =>
      obtain ⟨rfl, hg⟩ := hnew r k' hr hk'
      rw [hg, mem_collect]
      refine or_congr Iff.rfl (exists_congr fun s => and_congr_right fun hs => ?_)
      obtain ⟨k2, h2⟩ := hk s hs
      rw [hget s k2 h2]
    | some k0 =>
      rw [hext _ _ hr] at hk'; cases hk'
      rw [hget _ _ hr, h.solved r _ hr x]
      refine or_congr Iff.rfl (exists_congr fun s => and_congr_right fun hs => ?_)
      obtain ⟨k2, h2⟩ := h.closed _ _ hr s hs
      rw [hget s k2 h2]
  refine ⟨?_, ?_, ?_, hsolved, ?_, hclosed⟩
  · subst hU; subst hS; simp [h.main]
  · subst hU; subst hS; exact h.recs
  · subst hU; subst hS; exact h.worlds
  · intro r k' hk' x hx
    match hr : U.look r with
    | none =>
      obtain ⟨rfl, hg⟩ := hnew r k' hr hk'
      rw [hg, mem_collect] at hx
      rcases hx with hx | ⟨s, hs, hx⟩
      · exact .here hk' hx
      · obtain ⟨k2, h2⟩ := hk s hs
        exact .kid ⟨_, hk', hs⟩ ((h.sound s k2 h2 x hx).ext hext)
    | some k0 =>
      rw [hget _ _ hr] at hx
      exact (h.sound r k0 hr x hx).ext hext

theorem Exact.group {U : Universe} {S : Sums} (h : Exact V U S) {kinds : List Kind} {ss : List (Finset FreeVar)}
    (hk : ∀ k ∈ kinds, ∀ r ∈ k.kids, ∃ k', Universe.look ⟨U.main, U.recs ++ [kinds], U.cache⟩ r = some k')
    (hss : groupSums V S (U.recs.length + 1) kinds = some ss) :
    Exact V ⟨U.main, U.recs ++ [kinds], U.cache⟩ ⟨S.main, S.recs ++ [ss]⟩ := by
  obtain ⟨hsol, hlen, hmin⟩ := groupSums_spec hss
  generalize hU : (⟨U.main, U.recs ++ [kinds], U.cache⟩ : Universe) = U' at hk ⊢
  generalize hS : (⟨S.main, S.recs ++ [ss]⟩ : Sums) = S'
  have hlook : ∀ v i, v ≠ U.recs.length + 1 → U'.look (.glob v i) = U.look (.glob v i) := by
    subst hU
    intro v i hv
    cases v with
    | zero => rfl
    | succ v =>
      simp only [Universe.look, Universe.world]
      by_cases hl : v < U.recs.length
      · rw [List.getElem?_append_left hl]
      · rw [List.getElem?_eq_none (l := U.recs) (by omega),
          List.getElem?_eq_none (l := U.recs ++ [kinds]) (by simp; omega)]
  have hlookw : ∀ i, U'.look (.glob (U.recs.length + 1) i) = kinds[i]? := by
    subst hU; intro i; simp [Universe.look, Universe.world]
  have hold : ∀ i, U.look (.glob (U.recs.length + 1) i) = none := by
    intro i; simp [Universe.look, Universe.world]
  have hget : ∀ v i, v ≠ U.recs.length + 1 → S'.get (.glob v i) = S.get (.glob v i) := by
    subst hS
    intro v i hv
    cases v with
    | zero => rfl
    | succ v =>
      have hr := h.recs
      simp only [Sums.get]
      by_cases hl : v < U.recs.length
      · rw [List.getElem?_append_left (by omega)]
      · rw [List.getElem?_eq_none (l := S.recs) (by omega),
          List.getElem?_eq_none (l := S.recs ++ [ss]) (by simp; omega)]
  have hgetw : ∀ i, S'.get (.glob (U.recs.length + 1) i) = at' ss i := by
    subst hS; intro i; rw [← h.recs]; simp [Sums.get, at']
  have hgl : ∀ r, groupLookup S (U.recs.length + 1) ss r = S'.get r := by
    intro r
    cases r with
    | loc i => rfl
    | glob v i =>
      simp only [groupLookup]
      split
      · next e => rw [e, hgetw]; rfl
      · next e => rw [hget v i e]
  have hext : Ext U.look U'.look := by
    intro r k' hk'
    cases r with
    | loc i => cases hk'
    | glob v i =>
      by_cases hv : v = U.recs.length + 1
      · subst hv; rw [hold] at hk'; cases hk'
      · rw [hlook v i hv]; exact hk'
  have hclosed : Closed U'.look := by
    intro r k' hk' s hs
    cases r with
    | loc i => subst hU; cases hk'
    | glob v i =>
      by_cases hv : v = U.recs.length + 1
      · subst hv
        rw [hlookw] at hk'
        exact hk k' (List.mem_of_getElem? hk') s hs
      · rw [hlook v i hv] at hk'
        exact (h.closed _ _ hk' s hs).imp fun _ h => hext _ _ h
  refine ⟨?_, ?_, ?_, ?_, ?_, hclosed⟩
  · subst hU; subst hS; exact h.main
  · subst hU; subst hS; simp [h.recs]
  · subst hU; subst hS
    intro w
    have hr := h.recs
    have hw := h.worlds w
    by_cases hl : w < U.recs.length
    · simp only [List.getElem?_append_left hl, List.getElem?_append_left (show w < S.recs.length by omega)]
      exact hw
    · by_cases he : w = U.recs.length
      · subst he
        rw [← hr]
        simp [hlen]
        rw [hr]; simp
      · rw [List.getElem?_eq_none (by simp; omega), List.getElem?_eq_none (by simp; omega)]
        rfl
  · intro r k' hk' x
    cases r with
    | loc i => subst hU; cases hk'
    | glob v i =>
      by_cases hv : v = U.recs.length + 1
      · subst hv
        rw [hlookw] at hk'
        rw [hgetw, ← hsol i k' hk', mem_collect]
        simp only [hgl]
      · rw [hlook v i hv] at hk'
        rw [hget v i hv, h.solved _ _ hk' x]
        refine or_congr Iff.rfl (exists_congr fun s => and_congr_right fun hs => ?_)
        obtain ⟨k2, h2⟩ := h.closed _ _ hk' s hs
        cases s with
        | loc j => cases h2
        | glob u j =>
          rw [hget u j]
          rintro rfl
          rw [hold] at h2; cases h2
  · intro r k' hk' x hx
    cases r with
    | loc i => subst hU; cases hk'
    | glob v i =>
      by_cases hv : v = U.recs.length + 1
      · subst hv
        rw [hgetw] at hx
        refine hmin (fun i x => Occurs V U'.look x (.glob (U.recs.length + 1) i)) ?_ i x hx
        intro j kj y hkj hy
        have hkj' : U'.look (.glob (U.recs.length + 1) j) = some kj := by rw [hlookw]; exact hkj
        rcases hy with hy | ⟨s, hs, hy⟩
        · exact .here hkj' hy
        · refine .kid ⟨kj, hkj', hs⟩ ?_
          cases s with
          | loc _ => exact hy.elim
          | glob u m =>
            simp only at hy
            split at hy
            · next e => subst e; exact hy
            · next e =>
              obtain ⟨k2, h2⟩ := hk kj (List.mem_of_getElem? hkj) _ hs
              rw [hlook u m e] at h2
              exact (h.sound _ k2 h2 y hy).ext hext
      · rw [hlook v i hv] at hk'
        rw [hget v i hv] at hx
        exact (h.sound _ _ hk' x hx).ext hext

theorem Summed.exact {U : Universe} (h : Summed V U S) : Exact V U S := by
  induction h with
  | new =>
    have hno : ∀ r k, Universe.new.look r ≠ some k := by
      intro r k
      cases r with
      | loc i => simp [Universe.look]
      | glob w i => cases w <;> simp [Universe.look, Universe.world, Universe.new]
    exact ⟨rfl, rfl, fun _ => rfl, fun r k h => (hno r k h).elim, fun r k h => (hno r k h).elim,
      fun r k h => (hno r k h).elim⟩
  | plain _ hk ih => exact ih.plain hk
  | group _ hk hs ih => exact ih.group hk hs
  | @cache U S c _ ih =>
    have e : Universe.look { U with cache := c } = U.look := by
      funext r
      cases r with
      | loc i => rfl
      | glob w i => cases w <;> rfl
    exact ⟨ih.main, ih.recs, ih.worlds, by rw [e]; exact ih.solved, by rw [e]; exact ih.sound,
      by rw [e]; exact ih.closed⟩

theorem Grown.summed {U : Universe} (h : Grown U) (V : Vars) : ∃ S, Summed V U S := by
  induction h with
  | new => exact ⟨_, .new⟩
  | plain _ hk ih => obtain ⟨S, hS⟩ := ih; exact ⟨_, hS.plain hk⟩
  | @group U kinds _ hk ih =>
    obtain ⟨S, hS⟩ := ih
    obtain ⟨ss, hss⟩ := groupSums_total V S (U.recs.length + 1) kinds
    exact ⟨_, hS.group hk hss⟩
  | cache _ ih => obtain ⟨S, hS⟩ := ih; exact ⟨_, hS.cache⟩

theorem Exact.iff {U : Universe} (h : Exact V U S) {r : Ref} {k : Kind} (hr : U.look r = some k) (x : FreeVar) :
    x ∈ S.get r ↔ Occurs V U.look x r := by
  refine ⟨h.sound r k hr x, ?_⟩
  rintro ⟨s, ks, hs, hk, hx⟩
  have h0 : x ∈ S.get s := (h.solved s ks hk x).2 (.inl (mem_direct.2 hx))
  rcases hs with rfl | hs
  · exact h0
  · clear hk hx
    induction hs with
    | one hu =>
      obtain ⟨k', hk', hm⟩ := hu
      exact (h.solved _ _ hk' x).2 (.inr ⟨_, hm, h0⟩)
    | more _ hu ih =>
      obtain ⟨k', hk', hm⟩ := hu
      exact ih ((h.solved _ _ hk' x).2 (.inr ⟨_, hm, h0⟩))

end Ferlium.Intern
