import Verif.Proofs.TypeRewrite
import Verif.Props.Intern

/-!
# C89: rewriting a type gives the rewritten type

Instantiating a generic type, and closing an equation into a recursive type, must give the handle of
exactly the type one gets by replacing the variables, also when the type refers to itself.
-/

namespace Ferlium.Intern

variable {eff : Nat → List (List Nat)} {le : Kind → Kind → Bool}

/-- The general form of the theorems below. -/
theorem rewrite_spec {order : List Nat → List Nat} (ho : ∀ l, (order l).Perm l) {U : Universe}
    (hU : Built eff le U) {f : Rules} (hf : Fine U.look f) (hn : KeepsNames f) {rs : List Ref}
    (hr : ∀ r ∈ rs, ∃ k, U.look r = some k)
    (hb : ∀ s rs', walk U f rs = some (s, rs') → Batch eff U s.out) :
    ∃ U' rs', rewrite order le U f rs = some (U', rs') ∧ Later eff le U U' ∧
      List.Forall₂ (fun r r' => (∃ k, U'.look r' = some k) ∧
        ∀ n, Intern.unfold U'.look n r' = ruleTree U.look f n r) rs rs' := by
  have hI := hU.inv
  obtain ⟨s, rs', hw, hs, hfill, hrep⟩ := walk_spec hI.closed hf hr
  have hb := hb s rs' hw
  have hstop : ∀ r k g, U.look r = some k → f.stop r = some g → Same (batch U s.out) U.look g g := by
    intro r k g hk hg
    obtain ⟨k', hk'⟩ := hf.stop r k g hk hg
    exact ((batch_ext U s.out).same hI.closed hk').symm
  have hrep := forall2_valid hrep hr
  have htree := fun n r r' k => rep_tree (U₂ := U) hI.closed hs hfill hstop n r r' k
  unfold rewrite
  simp only [hw]
  by_cases he : s.out.isEmpty = true
  · rw [if_pos he]
    refine ⟨U, rs', rfl, .now, forall2_imp ?_ hrep⟩
    rintro r r' ⟨h1, k, hk⟩
    have h0 : s.out.length = 0 := by simpa using he
    rcases h1 with h1 | ⟨h1, i, h2, _⟩
    · refine ⟨hf.stop r k r' hk h1, fun n => ?_⟩
      rw [← htree n r r' k hk (.inl h1)]
      exact (hstop r k r' hk h1 n).symm
    · have := hs.idx _ _ h2; omega
  · rw [if_neg he]
    have hnorm := out_normal hI hn hfill
    obtain ⟨U', types, h1, _, h3, h4⟩ := C88_stored_partial (le := le) ho hU (kinds := s.out) (by rw [hnorm]; exact hb)
    rw [hnorm] at h4
    have hlater : Later eff le U U' := .store .now ho (by rw [hnorm]; exact hb) h1
    have hkept := (C88_kept_partial hU hlater).2
    simp only [h1]
    obtain ⟨l, hl1, hl2⟩ := forall2_mapM (g := remap types) (P := fun r r' => (∃ k, U'.look r' = some k) ∧
        ∀ n, Intern.unfold U'.look n r' = ruleTree U.look f n r) (l := rs) (l' := rs') (by
      refine forall2_imp ?_ hrep
      rintro r r' ⟨h5, k, hk⟩
      have ht := fun n => htree n r r' k hk h5
      rcases h5 with h5 | ⟨_, i, h7, rfl⟩
      · obtain ⟨k', hk'⟩ := hf.stop r k r' hk h5
        obtain ⟨h8, h9⟩ := hkept r' k' hk'
        refine ⟨r', ?_, ⟨k', h8⟩, fun n => ?_⟩
        · cases r' with
          | loc i => cases hk'
          | glob w i => rfl
        · rw [← ht n, hstop r k r' hk h5 n]; exact (h9 n).symm
      · have hi : i < types.length := by rw [h3]; exact hs.idx _ _ h7
        obtain ⟨h8, h9⟩ := h4 i types[i] (List.getElem?_eq_getElem hi)
        exact ⟨types[i], List.getElem?_eq_getElem hi, h8, fun n => (h9 n).trans (ht n)⟩)
    exact ⟨U', l, by simp [hl1], hlater, hl2⟩

theorem forall2_singleton {R : Ref → Ref → Prop} {r : Ref} {l : List Ref} (h : List.Forall₂ R [r] l) :
    ∃ r', l = [r'] ∧ R r r' := by
  cases h with
  | cons h1 h2 => cases h2; exact ⟨_, rfl, h1⟩

theorem mapEffects_var {me : List Nat → List Nat} {h : Head} {x : Nat} (e : h.mapEffects me = .var x) : h = .var x := by
  cases h <;> simp_all [Head.mapEffects]

theorem mapEffects_sorted (me : List Nat → List Nat) (k : Kind) (kids : List Ref) (h : k.Sorted)
    (hl : kids.length = k.kids.length) : (⟨k.head.mapEffects me, kids⟩ : Kind).Sorted := by
  unfold Kind.Sorted at *
  cases hk : k.head <;> simp_all [Head.mapEffects]

theorem Untouched.kid {look : Look} {dom : Nat → Prop} {hd : Head → Head} {r s : Ref} (h : Untouched look dom hd r)
    (hs : Uses look r s) : Untouched look dom hd s := by
  intro t ht
  refine h t (.inr ?_)
  rcases ht with rfl | ht
  · exact .one hs
  · exact (Reaches.one hs).trans ht

/-- Types without variables to replace do not change. -/
theorem untouched_tree {look : Look} (hc : Closed look) (hp : PlainVars look) {σ : Nat → Option (Nat → Tree)}
    {hd : Head → Head} : ∀ (n : Nat) (r : Ref), (∃ k, look r = some k) → Untouched look (fun x => σ x ≠ none) hd r →
      Intern.unfold look n r = subTree look σ hd n r
  | 0, _, _, _ => rfl
  | n + 1, r, ⟨k, hk⟩, h => by
    obtain ⟨h1, h2⟩ := h r (.inl rfl) k hk
    have hkids : k.kids.map (Intern.unfold look n) = k.kids.map (subTree look σ hd n) :=
      List.map_congr_left fun s hs => untouched_tree hc hp n s (hc _ _ hk s hs) (h.kid ⟨k, hk, hs⟩)
    obtain ⟨hd', kids⟩ := k
    rw [Intern.unfold, subTree]
    simp only [hk]
    cases hd' with
    | var x =>
      have := h2 x rfl
      simp only [ne_eq, Decidable.not_not] at this
      have hkids0 := hp r x kids hk
      subst hkids0
      simp [this]
    | _ =>
      simp only at h1 hkids
      simp only [h1, hkids]

/-- The sets of effects written in a head, in order; a subscript without a member has none for it. -/
def effectSets : Head → List (Option (List Nat))
  | .fn _ e => [some e]
  | .subscript _ a b => [a, b]
  | .named _ es => es.map some
  | _ => []

/-- A head with its effects blanked out. -/
def bare : Head → Head
  | .fn muts _ => .fn muts []
  | .subscript muts _ _ => .subscript muts none none
  | .named d es => .named d (es.map fun _ => [])
  | h => h

/-- **Effects are replaced everywhere**, each in its place, and nothing else of the head changes. -/
theorem C89_effects (me : List Nat → List Nat) (h : Head) :
    effectSets (h.mapEffects me) = (effectSets h).map (Option.map me) ∧ bare (h.mapEffects me) = bare h := by
  cases h <;> simp [effectSets, bare, Head.mapEffects, Function.comp_def]

/-- Two effect arguments and the two members of a subscript, all widened by the effect 7. -/
example : effectSets ((Head.named 3 [[1], [2]]).mapEffects (7 :: ·)) = [some [7, 1], some [7, 2]] ∧
    effectSets ((Head.subscript [0] (some [1]) none).mapEffects (7 :: ·)) = [some [7, 1], none] := by decide

/-- **Instantiation**: the result is the type in which every variable is replaced by the unfolding of its
type, and effects are replaced everywhere. -/
theorem C89_instantiated_partial {order : List Nat → List Nat} (ho : ∀ l, (order l).Perm l) {U : Universe}
    (hU : Built eff le U) (hp : PlainVars U.look) {σ : Nat → Option Ref} {me : List Nat → List Nat}
    {affects : Ref → Bool} (hσ : ∀ x g, σ x = some g → ∃ k, U.look g = some k)
    (ha : ∀ r k, U.look r = some k → affects r = false →
      Untouched U.look (fun x => σ x ≠ none) (Head.mapEffects me) r)
    {r : Ref} {k : Kind} (hr : U.look r = some k)
    (hb : ∀ s rs', walk U (instRules U affects σ me) [r] = some (s, rs') → Batch eff U s.out) :
    ∃ U' r', instantiate order le U affects σ me r = some (U', [r']) ∧ Later eff le U U' ∧
      (∃ k', U'.look r' = some k') ∧
      ∀ n, Intern.unfold U'.look n r' =
        subTree U.look (fun x => (σ x).map fun g n => Intern.unfold U.look n g) (Head.mapEffects me) n r := by
  have hI := hU.inv
  have hf : Fine U.look (instRules U affects σ me) := by
    constructor
    · intro r k g hk hg
      simp only [instRules] at hg
      split at hg
      · split at hg
        · next x _ hx =>
          cases hg
          match hsx : σ x with
          | none => exact ⟨k, by simpa [hsx] using hk⟩
          | some g => simpa [hsx] using hσ x g hsx
        · cases hg
      · cases hg; exact ⟨k, hk⟩
    · intro r k hk _
      exact ⟨k, hk⟩
  obtain ⟨U', rs', h1, h2, h3⟩ := rewrite_spec (le := le) ho hU hf (fun k kids => mapEffects_sorted me k kids)
    (rs := [r]) (by simpa using ⟨k, hr⟩) hb
  obtain ⟨r', rfl, h4, h5⟩ := forall2_singleton h3
  refine ⟨U', r', h1, h2, h4, fun n => (h5 n).trans ?_⟩
  have key : ∀ (n : Nat) (r : Ref), (∃ k, U.look r = some k) → ruleTree U.look (instRules U affects σ me) n r =
      subTree U.look (fun x => (σ x).map fun g n => Intern.unfold U.look n g) (Head.mapEffects me) n r := by
    intro n
    induction n with
    | zero => intro r _; rfl
    | succ n ih =>
      rintro r ⟨k, hk⟩
      by_cases haf : affects r = true
      · have hkids : k.kids.map (ruleTree U.look (instRules U affects σ me) n) =
            k.kids.map (subTree U.look (fun x => (σ x).map fun g n => Intern.unfold U.look n g) (Head.mapEffects me) n) :=
          List.map_congr_left fun s hs => ih s (hI.closed _ _ hk s hs)
        obtain ⟨h, kids⟩ := k
        rw [ruleTree, subTree]
        simp only [instRules, if_pos haf, hk]
        cases h with
        | var x =>
          simp only
          match hsx : σ x with
          | none =>
            have := hp r x kids hk
            subst this
            simp [Intern.unfold, hk]
          | some g => simp
        | _ => simp only [← hkids]; rfl
      · have hstop : (instRules U affects σ me).stop r = some r := by simp [instRules, haf]
        rw [ruleTree, hstop]
        refine untouched_tree hI.closed hp (n + 1) r ⟨k, hk⟩ ?_
        have := ha r k hk (by simpa using haf)
        intro s hs k' hk'
        obtain ⟨e1, e2⟩ := this s hs k' hk'
        refine ⟨e1, fun x hx => ?_⟩
        have := e2 x hx
        simpa using this
  exact key n r ⟨k, hr⟩

/-- … so any other handle of the instantiated type is the result. -/
theorem C89_instance_equal_partial {U' : Universe} (hU' : Built eff le U') {r' r'' : Ref} {k' k'' : Kind}
    {t : Nat → Tree} (h' : U'.look r' = some k') (h'' : U'.look r'' = some k'')
    (e' : ∀ n, Intern.unfold U'.look n r' = t n) (e'' : ∀ n, Intern.unfold U'.look n r'' = t n) : r' = r'' :=
  (C88_canonical_partial hU' h' h'').2 fun n => (e' n).trans (e'' n).symm

/-- **Recursive equations**: the result is a solution of the equation.  It is the right-hand side with the
result itself for the variable. -/
theorem C89_equation_partial {order : List Nat → List Nat} (ho : ∀ l, (order l).Perm l) {U : Universe}
    (hU : Built eff le U) (hp : PlainVars U.look) {affects : Ref → Bool} {x : Nat} {v root : Ref} {k : Kind}
    (hv : U.look v = some ⟨.var x, []⟩) (hroot : U.look root = some k) (hne : root ≠ v)
    (haroot : affects root = true)
    (ha : ∀ r k, U.look r = some k → affects r = false → Untouched U.look (fun y => y = x) (fun h => h) r)
    (hb : ∀ s rs', walk U (tieRules affects v root) [root] = some (s, rs') → Batch eff U s.out) :
    ∃ U' r', tie order le U affects v root = some (U', [r']) ∧ Later eff le U U' ∧
      (∃ k', U'.look r' = some k') ∧
      ∀ n, Intern.unfold U'.look n r' =
        subTree U.look (fun y => if y = x then some fun n => Intern.unfold U'.look n r' else none) (fun h => h) n root := by
  have hI := hU.inv
  have hf : Fine U.look (tieRules affects v root) := by
    constructor
    · intro r k g hk hg
      simp only [tieRules] at hg
      split at hg
      · cases hg
      · cases hg; exact ⟨k, hk⟩
    · intro r k' hk _
      simp only [tieRules]
      split
      · exact ⟨k, hroot⟩
      · exact ⟨k', hk⟩
  obtain ⟨U', rs', h1, h2, h3⟩ := rewrite_spec (le := le) ho hU hf
    (fun k kids hs hl => hs.of_head rfl hl) (rs := [root]) (by simpa using ⟨k, hroot⟩) hb
  obtain ⟨r', rfl, h4, h5⟩ := forall2_singleton h3
  refine ⟨U', r', h1, h2, h4, fun n => (h5 n).trans ?_⟩
  have key : ∀ (n : Nat) (r : Ref), (∃ k, U.look r = some k) → ruleTree U.look (tieRules affects v root) n r =
      subTree U.look (fun y => if y = x then some fun n => Intern.unfold U'.look n r' else none) (fun h => h) n r := by
    intro n
    induction n with
    | zero => intro r _; rfl
    | succ n ih =>
      rintro r ⟨kr, hk⟩
      by_cases haf : affects r = true
      · by_cases hrv : r = v
        · subst hrv
          rw [ruleTree, subTree]
          simp only [hv, ↓reduceIte, h5]
          rw [ruleTree]
          simp [tieRules, haf, haroot, hne]
        · have hkids : kr.kids.map (ruleTree U.look (tieRules affects v root) n) =
              kr.kids.map (subTree U.look (fun y => if y = x then some fun n => Intern.unfold U'.look n r' else none)
                (fun h => h) n) :=
            List.map_congr_left fun s hs => ih s (hI.closed _ _ hk s hs)
          obtain ⟨h, kids⟩ := kr
          have e : ruleTree U.look (tieRules affects v root) (n + 1) r =
              .node h (kids.map (ruleTree U.look (tieRules affects v root) n)) := by
            rw [ruleTree]
            simp only [tieRules, if_pos haf, if_neg hrv, hk]
          rw [e, subTree]
          simp only [hk]
          cases h with
          | var y =>
            have := hp r y kids hk
            subst this
            have hyx : y ≠ x := by
              rintro rfl
              refine hrv (hI.canon r v _ _ hk hv fun n => ?_)
              cases n <;> simp [Intern.unfold, hk, hv]
            simp [hyx]
          | _ => simp only [hkids]
      · have hstop : (tieRules affects v root).stop r = some r := by simp [tieRules, haf]
        rw [ruleTree, hstop]
        refine untouched_tree hI.closed hp (n + 1) r ⟨kr, hk⟩ ?_
        have := ha r kr hk (by simpa using haf)
        intro s hs k' hk'
        obtain ⟨e1, e2⟩ := this s hs k' hk'
        refine ⟨e1, fun y hy => ?_⟩
        have := e2 y hy
        simp [this]
  exact key n root ⟨k, hroot⟩

theorem subTree_agree {look : Look} {σ σ' : Nat → Option (Nat → Tree)} {hd : Head → Head} {n : Nat}
    (h : ∀ m, m ≤ n → ∀ x, (σ x).map (· m) = (σ' x).map (· m)) :
    ∀ m, m ≤ n → ∀ r, subTree look σ hd m r = subTree look σ' hd m r
  | 0, _, _ => rfl
  | m + 1, hm, r => by
    have ih := subTree_agree (hd := hd) (look := look) h m (by omega)
    have hx := h (m + 1) hm
    rw [subTree, subTree]
    split
    · rfl
    · next k _ =>
      have hkids : k.kids.map (subTree look σ hd m) = k.kids.map (subTree look σ' hd m) :=
        List.map_congr_left fun s _ => ih s
      obtain ⟨h, kids⟩ := k
      cases h with
      | var x =>
        have := hx x
        simp only
        match e : σ x, e' : σ' x with
        | none, none => rfl
        | none, some _ => simp [e, e'] at this
        | some _, none => simp [e, e'] at this
        | some t, some t' => simpa [e, e'] using this
      | _ => simp only at hkids; simp only [hkids]

/-- The equation has no other solution: any handle that stands for one is the result. -/
theorem C89_solution_unique_partial {U U' : Universe} (hU' : Built eff le U') {x : Nat} {root r' r'' : Ref}
    {k k' k'' : Kind} (hroot : U.look root = some k) (hnv : ∀ y, k.head ≠ .var y)
    (h' : U'.look r' = some k') (h'' : U'.look r'' = some k'')
    (e' : ∀ n, Intern.unfold U'.look n r' =
      subTree U.look (fun y => if y = x then some fun n => Intern.unfold U'.look n r' else none) (fun h => h) n root)
    (e'' : ∀ n, Intern.unfold U'.look n r'' =
      subTree U.look (fun y => if y = x then some fun n => Intern.unfold U'.look n r'' else none) (fun h => h) n root) :
    r' = r'' := by
  refine (C88_canonical_partial hU' h' h'').2 fun n => ?_
  induction n using Nat.strongRecOn with
  | _ n ih =>
    match n, ih with
    | 0, _ => rfl
    | n + 1, ih =>
      rw [e', e'', subTree, subTree]
      simp only [hroot]
      have hkids : k.kids.map (subTree U.look (fun y => if y = x then some fun n => Intern.unfold U'.look n r' else none) (fun h => h) n) =
          k.kids.map (subTree U.look (fun y => if y = x then some fun n => Intern.unfold U'.look n r'' else none) (fun h => h) n) := by
        refine List.map_congr_left fun s _ => subTree_agree (n := n) ?_ n (Nat.le_refl _) s
        intro m hm y
        by_cases hy : y = x
        · simp [hy, ih m (by omega)]
        · simp [hy]
      obtain ⟨h, kids⟩ := k
      cases h with
      | var y => exact absurd rfl (hnv y)
      | _ => simp only at hkids; simp only [hkids]

/-! ## A generic tree with two kinds of nodes -/

/-- `local_cmp` of inner types, type.rs 1363-1369: references within the batch are not compared. -/
def exKey : Ref → Nat
  | .loc _ => 0
  | .glob w i => 1 + i + 100 * w

/-- `compare_by`, containers.rs 316-333, as "not greater". -/
def exLex : List Nat → List Nat → Bool
  | [], _ => true
  | _ :: _, [] => false
  | a :: l, b :: l' => a < b || (a == b && exLex l l')

/-- `local_cmp` on the kinds of the example, type.rs 2501-2518, 2539-2551. -/
def exLe2 (a b : Kind) : Bool :=
  let rank : Kind → Nat := fun k =>
    match k.head with
    | .variant _ => 3
    | .tuple => 4
    | _ => 9
  rank a < rank b || (rank a == rank b && exLex (a.kids.map exKey) (b.kids.map exKey))

/-- `int`, the variables `B` and `A`, and `()`. -/
def exVars : Universe := ⟨[⟨.native 0, []⟩, ⟨.var 1, []⟩, ⟨.var 0, []⟩, ⟨.tuple, []⟩], [], []⟩

/-- `type Tree<A, B> = Leaf | Left(A, Tree<A, B>) | Right(B, Tree<A, B>)`, for two types of the main
world. -/
def exTree (a b : Nat) : List Kind :=
  [⟨.variant ["Leaf", "Left", "Right"], [.glob 0 3, .loc 1, .loc 2]⟩, ⟨.tuple, [.glob 0 a, .loc 0]⟩,
   ⟨.tuple, [.glob 0 b, .loc 0]⟩]

theorem exTree_normal (a b : Nat) : (exTree a b).map Kind.normalize = exTree a b := by
  have : Kind.normalize ⟨.variant ["Leaf", "Left", "Right"], [.glob 0 3, .loc 1, .loc 2]⟩ =
    ⟨.variant ["Leaf", "Left", "Right"], [.glob 0 3, .loc 1, .loc 2]⟩ := by decide +kernel
  simp only [exTree, List.map_cons, List.map_nil, this]
  rfl

theorem exTree_batch (eff : Nat → List (List Nat)) {U : Universe} {a b : Nat} {ha hb : Head}
    (h3 : U.look (.glob 0 3) = some ⟨.tuple, []⟩) (hka : U.look (.glob 0 a) = some ⟨ha, []⟩)
    (hkb : U.look (.glob 0 b) = some ⟨hb, []⟩) (hne : ha ≠ hb) : Batch eff U (exTree a b) := by
  have l0 : batch U (exTree a b) (.loc 0) =
    some ⟨.variant ["Leaf", "Left", "Right"], [.glob 0 3, .loc 1, .loc 2]⟩ := rfl
  have l1 : batch U (exTree a b) (.loc 1) = some ⟨.tuple, [.glob 0 a, .loc 0]⟩ := rfl
  have l2 : batch U (exTree a b) (.loc 2) = some ⟨.tuple, [.glob 0 b, .loc 0]⟩ := rfl
  have g3 : batch U (exTree a b) (.glob 0 3) = some ⟨.tuple, []⟩ := h3
  have ga : batch U (exTree a b) (.glob 0 a) = some ⟨ha, []⟩ := hka
  have gb : batch U (exTree a b) (.glob 0 b) = some ⟨hb, []⟩ := hkb
  have ln : ∀ i, batch U (exTree a b) (.loc (i + 3)) = none := fun _ => rfl
  have hmem : ∀ k ∈ exTree a b, k = ⟨.variant ["Leaf", "Left", "Right"], [.glob 0 3, .loc 1, .loc 2]⟩ ∨
      k = ⟨.tuple, [.glob 0 a, .loc 0]⟩ ∨ k = ⟨.tuple, [.glob 0 b, .loc 0]⟩ := by
    intro k hk; simpa [exTree] using hk
  generalize hL : batch U (exTree a b) = L at *
  have hS : ∀ r ∈ [Ref.loc 0, .loc 1, .loc 2, .glob 0 3, .glob 0 a, .glob 0 b], ∀ k, L r = some k →
      ∀ s ∈ k.kids, s ∈ [Ref.loc 0, .loc 1, .loc 2, .glob 0 3, .glob 0 a, .glob 0 b] := by
    intro r hr k hk s hs
    simp only [List.mem_cons, List.not_mem_nil, or_false] at hr
    rcases hr with rfl | rfl | rfl | rfl | rfl | rfl
    · rw [l0] at hk; cases hk; simp at hs; rcases hs with rfl | rfl | rfl <;> simp
    · rw [l1] at hk; cases hk; simp at hs; rcases hs with rfl | rfl <;> simp
    · rw [l2] at hk; cases hk; simp at hs; rcases hs with rfl | rfl <;> simp
    · rw [g3] at hk; cases hk; simp at hs
    · rw [ga] at hk; cases hk; simp at hs
    · rw [gb] at hk; cases hk; simp at hs
  refine ⟨?_, ?_, ?_⟩
  · rw [hL]
    intro k hk r hr
    rcases hmem k hk with rfl | rfl | rfl <;> simp at hr
    · rcases hr with rfl | rfl | rfl
      · exact ⟨_, g3⟩
      · exact ⟨_, l1⟩
      · exact ⟨_, l2⟩
    · rcases hr with rfl | rfl
      · exact ⟨_, ga⟩
      · exact ⟨_, l0⟩
    · rcases hr with rfl | rfl
      · exact ⟨_, gb⟩
      · exact ⟨_, l0⟩
  · intro k hk d e hde
    rcases hmem k hk with rfl | rfl | rfl <;> simp at hde
  · rw [hL]
    intro i r hc hr hs
    have h1 := hs 1
    have h2 := hs 2
    match i with
    | 0 =>
      have := reach_in _ hS (by simp) hr
      simp only [List.mem_cons, List.not_mem_nil, or_false] at this
      rcases this with rfl | rfl | rfl | rfl | rfl | rfl
      · rfl
      · simp [Intern.unfold, l0, l1] at h1
      · simp [Intern.unfold, l0, l2] at h1
      · simp [Intern.unfold, l0, g3] at h1
      · simp [Intern.unfold, l0, ga] at h1
      · simp [Intern.unfold, l0, gb] at h1
    | 1 =>
      have := reach_in _ hS (by simp) hr
      simp only [List.mem_cons, List.not_mem_nil, or_false] at this
      rcases this with rfl | rfl | rfl | rfl | rfl | rfl
      · simp [Intern.unfold, l0, l1] at h1
      · rfl
      · simp [Intern.unfold, l0, l1, l2, ga, gb] at h2; exact absurd h2 hne
      · simp [Intern.unfold, l1, g3] at h1
      · simp [Intern.unfold, l1, ga] at h1
      · simp [Intern.unfold, l1, gb] at h1
    | 2 =>
      have := reach_in _ hS (by simp) hr
      simp only [List.mem_cons, List.not_mem_nil, or_false] at this
      rcases this with rfl | rfl | rfl | rfl | rfl | rfl
      · simp [Intern.unfold, l0, l2] at h1
      · simp [Intern.unfold, l0, l1, l2, ga, gb] at h2; exact absurd h2.symm hne
      · rfl
      · simp [Intern.unfold, l2, g3] at h1
      · simp [Intern.unfold, l2, ga] at h1
      · simp [Intern.unfold, l2, gb] at h1
    | i + 3 =>
      obtain ⟨k, hk⟩ := hc.source
      rw [ln] at hk; cases hk

/-- The table after storing the generic tree. -/
def exStored : Universe :=
  ⟨exVars.main, [[⟨.variant ["Leaf", "Left", "Right"], [.glob 0 3, .glob 1 2, .glob 1 1]⟩,
      ⟨.tuple, [.glob 0 1, .glob 1 0]⟩, ⟨.tuple, [.glob 0 2, .glob 1 0]⟩]],
    [([⟨.variant ["Leaf", "Left", "Right"], [.glob 0 3, .loc 2, .loc 1]⟩, ⟨.tuple, [.glob 0 1, .loc 0]⟩,
      ⟨.tuple, [.glob 0 2, .loc 0]⟩], 1, [0, 1, 2])]⟩

open Graph in
theorem exTree_component {order : List Nat → List Nat} (ho : ∀ l, (order l).Perm l) (a b : Nat) :
    ∃ c, componentsCalleesFirst order ((exTree a b).map neighbours) = some [c] ∧ c.Perm (List.range 3) := by
  have e : (exTree a b).map neighbours = [[1, 2], [0], [0]] := rfl
  refine one_component (ex_wf (by rw [e]; decide)) (by simp [exTree]) (ex_reach ?_ ?_) ho
  · intro i hi
    match i, hi with
    | 0, _ => exact .refl
    | 1, _ => exact .single ⟨[0], rfl, by simp⟩
    | 2, _ => exact .single ⟨[0], rfl, by simp⟩
  · intro i hi
    match i, hi with
    | 0, _ => exact .refl
    | 1, _ => exact .single ⟨[1, 2], rfl, by simp⟩
    | 2, _ => exact .single ⟨[1, 2], rfl, by simp⟩

theorem exTree_insert {order : List Nat → List Nat} (ho : ∀ l, (order l).Perm l) (a b : Nat) (U : Universe) :
    ∃ c ∈ (List.range 3).permutations', insertTypes order exLe2 U (exTree a b) =
      (insertSccs exLe2 (exTree a b) U [none, none, none] [c]).map fun (U', rs) => (U', rs.map (·.getD (.loc 0))) := by
  obtain ⟨c, hc, hp⟩ := exTree_component ho a b
  refine ⟨c, perm_range hp, ?_⟩
  rw [insertTypes, exTree_normal, insertNormal]
  have hn : allPlain (exTree a b) = none := rfl
  have hl : ¬ (exTree a b).length = 1 := by simp [exTree]
  rw [hn]
  simp only [if_neg hl, hc, Option.bind_some]
  rfl

theorem exVars_built (eff : Nat → List (List Nat)) : Built eff exLe2 exVars := by
  refine .store (order := id) .new (fun l => .refl l)
    (kinds := [⟨.tuple, []⟩, ⟨.var 0, []⟩, ⟨.var 1, []⟩, ⟨.native 0, []⟩])
    (types := [.glob 0 3, .glob 0 2, .glob 0 1, .glob 0 0]) ?_ (by decide +kernel)
  have hn : [(⟨.tuple, []⟩ : Kind), ⟨.var 0, []⟩, ⟨.var 1, []⟩, ⟨.native 0, []⟩].map Kind.normalize =
    [⟨.tuple, []⟩, ⟨.var 0, []⟩, ⟨.var 1, []⟩, ⟨.native 0, []⟩] := rfl
  rw [hn]
  refine ⟨by simp, by simp, ?_⟩
  intro i r hc
  exfalso
  obtain ⟨s, ⟨k, hk, hs⟩, _⟩ := hc.first
  match i with
  | 0 => cases hk; simp at hs
  | 1 => cases hk; simp at hs
  | 2 => cases hk; simp at hs
  | 3 => cases hk; simp at hs
  | i + 4 => cases hk

theorem exStored_built (eff : Nat → List (List Nat)) : Built eff exLe2 exStored := by
  obtain ⟨c, hc, h⟩ := exTree_insert (order := id) (fun l => .refl l) 2 1 exVars
  have hall : ∀ c ∈ (List.range 3).permutations',
      ((insertSccs exLe2 (exTree 2 1) exVars [none, none, none] [c]).map fun (U', rs) => (U', rs.map (·.getD (.loc 0)))) =
        some (exStored, [.glob 1 0, .glob 1 2, .glob 1 1]) := by decide +kernel
  rw [hall c hc] at h
  refine .store (order := id) (exVars_built eff) (fun l => .refl l) ?_ h
  rw [exTree_normal]
  exact exTree_batch eff (ha := .var 0) (hb := .var 1) rfl rfl rfl (by simp)

/-- What has variables in the table. -/
def exAffects : Ref → Bool
  | .glob 0 i => i == 1 || i == 2
  | .glob _ _ => true
  | .loc _ => false

theorem exStored_plainVars : PlainVars exStored.look := by
  intro r x kids h
  have := valid_mem h
  simp [exStored, exVars, recRefs, List.range_succ] at this
  rcases this with rfl | rfl | rfl | rfl | rfl | rfl | rfl <;> cases h <;> rfl

theorem exStored_affects {dom : Nat → Prop} (r : Ref) (k : Kind) (hk : exStored.look r = some k)
    (ha : exAffects r = false) : Untouched exStored.look dom (Head.mapEffects id) r := by
  have hm := valid_mem hk
  simp [exStored, exVars, recRefs, List.range_succ] at hm
  have hno : k = ⟨.native 0, []⟩ ∨ k = ⟨.tuple, []⟩ := by
    rcases hm with rfl | rfl | rfl | rfl | rfl | rfl | rfl <;> cases hk <;> simp [exAffects] at ha ⊢
  intro s hs k' hk'
  rcases hs with rfl | hs
  · rw [hk] at hk'; cases hk'
    rcases hno with rfl | rfl <;> exact ⟨rfl, by simp⟩
  · obtain ⟨t, ⟨kt, hkt, ht⟩, _⟩ := hs.first
    rw [hk] at hkt; cases hkt
    rcases hno with rfl | rfl <;> simp at ht

/-- Instantiating the tree with `A = int`: the hypotheses hold. -/
example : ∃ U' r', instantiate id exLe2 exStored exAffects (fun x => if x = 0 then some (.glob 0 0) else none) id
      (.glob 1 0) = some (U', [r']) ∧ Later (fun _ => []) exLe2 exStored U' ∧ (∃ k', U'.look r' = some k') ∧
    ∀ n, Intern.unfold U'.look n r' = subTree exStored.look (fun x => (if x = 0 then some (Ref.glob 0 0) else none).map
      fun g n => Intern.unfold exStored.look n g) (Head.mapEffects id) n (.glob 1 0) := by
  refine C89_instantiated_partial (fun l => .refl l) (exStored_built _) exStored_plainVars ?_
    (fun r k hk ha => exStored_affects r k hk ha) (k := ⟨.variant ["Leaf", "Left", "Right"], [.glob 0 3, .glob 1 2, .glob 1 1]⟩)
    rfl ?_
  · intro x g hg
    split at hg
    · cases hg; exact ⟨⟨.native 0, []⟩, rfl⟩
    · cases hg
  · intro s rs' hw
    have e : walk exStored (instRules exStored exAffects (fun x => if x = 0 then some (.glob 0 0) else none) id) [.glob 1 0] =
      some (⟨exTree 0 1, [(.glob 1 1, 2), (.glob 1 2, 1), (.glob 1 0, 0)]⟩, [.loc 0]) := by decide +kernel
    rw [e] at hw; cases hw
    exact exTree_batch _ (ha := .native 0) (hb := .var 1) rfl rfl rfl (by simp)

/-- The stored tree of integers refers to a type that is not in the table. -/
def exMissing (c : List Nat) : Bool :=
  match insertSccs exLe2 (exTree 0 0) exStored [none, none, none] [c] with
  | some (U', some r :: _) =>
    match U'.look r with
    | some k => k.kids.any fun q => (U'.look q).isNone
    | none => false
  | _ => false

/-- Instantiating the tree with `A = B = int` makes two of its payloads equal, and the result stands for
nothing: it refers to a type that is not in the table. -/
theorem C89_merged_violated (order : List Nat → List Nat) (ho : ∀ l, (order l).Perm l) :
    ∃ (U : Universe) (affects : Ref → Bool) (r : Ref) (k : Kind) (U' : Universe) (r' : Ref),
      Built (fun _ => []) exLe2 U ∧ PlainVars U.look ∧ U.look (.glob 0 0) = some ⟨.native 0, []⟩ ∧
      (∀ r k, U.look r = some k → affects r = false → Untouched U.look (fun _ => True) (Head.mapEffects id) r) ∧
      U.look r = some k ∧
      instantiate order exLe2 U affects (fun _ => some (.glob 0 0)) id r = some (U', [r']) ∧
      ¬ ∀ n, Intern.unfold U'.look n r' = subTree U.look (fun _ => some fun n => Intern.unfold U.look n (.glob 0 0))
          (Head.mapEffects id) n r := by
  obtain ⟨c, hc, h⟩ := exTree_insert ho 0 0 exStored
  have hall : ∀ c ∈ (List.range 3).permutations', exMissing c = true := by decide +kernel
  have hc := hall c hc
  unfold exMissing at hc
  split at hc
  · next U' r' rest hs =>
    rw [hs] at h
    refine ⟨exStored, exAffects, .glob 1 0, ⟨.variant ["Leaf", "Left", "Right"], [.glob 0 3, .glob 1 2, .glob 1 1]⟩,
      U', r', exStored_built _, exStored_plainVars, rfl, fun r k hk ha => exStored_affects r k hk ha, rfl, ?_, ?_⟩
    · have e : walk exStored (instRules exStored exAffects (fun _ => some (.glob 0 0)) id) [.glob 1 0] =
        some (⟨exTree 0 0, [(.glob 1 1, 2), (.glob 1 2, 1), (.glob 1 0, 0)]⟩, [.loc 0]) := by decide +kernel
      rw [instantiate, rewrite, e]
      simp only [h]
      rfl
    · intro hn
      have h2 := hn 2
      have e : subTree exStored.look (fun _ => some fun n => Intern.unfold exStored.look n (.glob 0 0))
          (Head.mapEffects id) 2 (.glob 1 0) = .node (.variant ["Leaf", "Left", "Right"])
            [.node .tuple [], .node .tuple [.cut, .cut], .node .tuple [.cut, .cut]] := rfl
      rw [e, Intern.unfold] at h2
      split at h2
      · cases h2
      · next k' hk' =>
        simp only [hk', List.any_eq_true] at hc
        obtain ⟨q, hq, hm⟩ := hc
        simp only [Tree.node.injEq] at h2
        have hqm : Intern.unfold U'.look 1 q ∈ k'.kids.map (Intern.unfold U'.look 1) := List.mem_map_of_mem hq
        have e1 : Intern.unfold U'.look 1 q = .missing := by
          have : U'.look q = none := by simpa using hm
          simp [Intern.unfold, this]
        rw [h2.2, e1] at hqm
        simp at hqm
  · cases hc

/-! ## The equation of lists -/

/-- One kind whose inner types are in the table may be stored. -/
theorem plain_batch {U : Universe} (hU : Built eff le U) {k : Kind} (hk : ∀ r ∈ k.kids, ∃ k', U.look r = some k')
    (he : ∀ d e, k.head ≠ .named d e) : Batch eff U [k] := by
  have hkid : ∀ r k', batch U [k] r = some k' → ∀ s ∈ k'.kids, ∃ k'', U.look s = some k'' := by
    intro r k' h s hs
    match r with
    | .loc 0 => cases h; exact hk s hs
    | .loc (i + 1) => cases h
    | .glob w i =>
      have h' : U.look (.glob w i) = some k' := h
      exact hU.inv.closed _ _ h' s hs
  refine ⟨?_, ?_, ?_⟩
  · intro k' hk' r hr
    simp only [List.mem_singleton] at hk'
    subst hk'
    obtain ⟨k'', h⟩ := hk r hr
    exact ⟨k'', batch_ext U [k'] r k'' h⟩
  · intro k' hk' d e hde
    simp only [List.mem_singleton] at hk'
    subst hk'
    exact absurd hde (he d e)
  · intro i r hc
    have key : ∀ r', Reaches (batch U [k]) (.loc i) r' → ∃ k'', U.look r' = some k'' := by
      intro r' h
      induction h with
      | one hu => obtain ⟨k', h1, h2⟩ := hu; exact hkid _ _ h1 _ h2
      | more _ hu _ => obtain ⟨k', h1, h2⟩ := hu; exact hkid _ _ h1 _ h2
    obtain ⟨k'', h⟩ := key _ hc
    cases h

/-- `int`, `()`, the variable `t`, `(int, t)` and `Cons(int, t) | Nil`. -/
def exEquation : Universe :=
  ⟨[⟨.native 0, []⟩, ⟨.tuple, []⟩, ⟨.var 0, []⟩, ⟨.tuple, [.glob 0 0, .glob 0 2]⟩,
    ⟨.variant ["Cons", "Nil"], [.glob 0 3, .glob 0 1]⟩], [], []⟩

theorem exEquation_built (eff : Nat → List (List Nat)) : Built eff exLe exEquation := by
  have h1 : Built eff exLe ⟨[⟨.native 0, []⟩], [], []⟩ :=
    .store (order := id) (kinds := [⟨.native 0, []⟩]) (types := [.glob 0 0]) .new (fun l => .refl l)
      (plain_batch (le := exLe) .new (by simp [Kind.normalize]) (by simp [Kind.normalize])) (by decide +kernel)
  have h2 : Built eff exLe ⟨[⟨.native 0, []⟩, ⟨.tuple, []⟩], [], []⟩ :=
    .store (order := id) (kinds := [⟨.tuple, []⟩]) (types := [.glob 0 1]) h1 (fun l => .refl l)
      (plain_batch h1 (by simp [Kind.normalize]) (by simp [Kind.normalize])) (by decide +kernel)
  have h3 : Built eff exLe ⟨[⟨.native 0, []⟩, ⟨.tuple, []⟩, ⟨.var 0, []⟩], [], []⟩ :=
    .store (order := id) (kinds := [⟨.var 0, []⟩]) (types := [.glob 0 2]) h2 (fun l => .refl l)
      (plain_batch h2 (by simp [Kind.normalize]) (by simp [Kind.normalize])) (by decide +kernel)
  have h4 : Built eff exLe ⟨[⟨.native 0, []⟩, ⟨.tuple, []⟩, ⟨.var 0, []⟩, ⟨.tuple, [.glob 0 0, .glob 0 2]⟩], [], []⟩ :=
    .store (order := id) (kinds := [⟨.tuple, [.glob 0 0, .glob 0 2]⟩]) (types := [.glob 0 3]) h3 (fun l => .refl l)
      (plain_batch h3 (by simp [Kind.normalize, Universe.look, Universe.world]) (by simp [Kind.normalize]))
      (by decide +kernel)
  have hn : [(⟨.variant ["Cons", "Nil"], [.glob 0 3, .glob 0 1]⟩ : Kind)].map Kind.normalize =
    [⟨.variant ["Cons", "Nil"], [.glob 0 3, .glob 0 1]⟩] := by decide +kernel
  exact .store (order := id) (kinds := [⟨.variant ["Cons", "Nil"], [.glob 0 3, .glob 0 1]⟩]) (types := [.glob 0 4]) h4
    (fun l => .refl l)
    (by rw [hn]; exact plain_batch h4 (by simp [Universe.look, Universe.world]) (by simp)) (by decide +kernel)

/-- What has the variable. -/
def exHasVar : Ref → Bool
  | .glob 0 i => i == 2 || i == 3 || i == 4
  | _ => false

/-- Closing `t = Cons(int, t) | Nil`: the hypotheses hold, and the result is the list of `Verif.Props.Intern`. -/
example : ∃ U' r', tie id exLe exEquation exHasVar (.glob 0 2) (.glob 0 4) = some (U', [r']) ∧
    Later (fun _ => []) exLe exEquation U' ∧ (∃ k', U'.look r' = some k') ∧
    ∀ n, Intern.unfold U'.look n r' = subTree exEquation.look
      (fun y => if y = 0 then some fun n => Intern.unfold U'.look n r' else none) (fun h => h) n (.glob 0 4) := by
  refine C89_equation_partial (fun l => .refl l) (exEquation_built _) ?_ (x := 0) (v := .glob 0 2) (root := .glob 0 4)
    rfl (k := ⟨.variant ["Cons", "Nil"], [.glob 0 3, .glob 0 1]⟩) rfl (by simp) rfl ?_ ?_
  · intro r x kids h
    have := valid_mem h
    simp [exEquation, recRefs, List.range_succ] at this
    rcases this with rfl | rfl | rfl | rfl | rfl <;> cases h <;> rfl
  · intro r k hk ha
    have hm := valid_mem hk
    simp [exEquation, recRefs, List.range_succ] at hm
    have hno : k = ⟨.native 0, []⟩ ∨ k = ⟨.tuple, []⟩ := by
      rcases hm with rfl | rfl | rfl | rfl | rfl <;> cases hk <;> simp [exHasVar] at ha ⊢
    intro s hs k' hk'
    rcases hs with rfl | hs
    · rw [hk] at hk'; cases hk'
      rcases hno with rfl | rfl <;> exact ⟨rfl, by simp⟩
    · obtain ⟨t, ⟨kt, hkt, ht⟩, _⟩ := hs.first
      rw [hk] at hkt; cases hkt
      rcases hno with rfl | rfl <;> simp at ht
  · intro s rs' hw
    have e : walk exEquation (tieRules exHasVar (.glob 0 2) (.glob 0 4)) [.glob 0 4] =
      some (⟨exList.map Kind.normalize, [(.glob 0 3, 1), (.glob 0 4, 0)]⟩, [.loc 0]) := by decide +kernel
    rw [e] at hw; cases hw
    exact exList_batch_in _ exEquation rfl rfl

end Ferlium.Intern
