import Verif.Proofs.StackRegion
import Verif.Proofs.CseSim

/-! The plan of the removal of stack markers: where markers come from, what is substituted and what is removed. -/
namespace Ferlium.StackRegion

open Ferlium.Mir Ferlium.Edit Ferlium.Dominance Ferlium.Graph
open Ferlium.Negation (Site opAt opAt_some Before before_iff before_irrefl site_unique)
open Ferlium.Cse (DefsFirst Ordered before_trans' lookup_mem)

variable {f : Body} {st : States}

/-- The markers known in front of an operation. -/
def stateAt (f : Body) (st : States) (p : Site) : Option Frontier :=
  match f[p.block]?, st p.block with
  | some blk, some e => some (steps (blk.ops.take p.index) e)
  | _, _ => none

theorem stateAt_some {p : Site} {s : Frontier} :
    stateAt f st p = some s ↔ ∃ blk e, f[p.block]? = some blk ∧ st p.block = some e ∧ s = steps (blk.ops.take p.index) e := by
  unfold stateAt
  split
  · rename_i blk e h1 h2
    rw [h1, h2]
    constructor
    · intro h; cases h; exact ⟨_, _, rfl, rfl, rfl⟩
    · rintro ⟨_, _, h1, h2, rfl⟩; cases h1; cases h2; rfl
  · rename_i h
    constructor
    · intro h; cases h
    · rintro ⟨blk, e, h1, h2, _⟩
      exact (h blk e h1 h2).elim

theorem stateAt_next {b i : Nat} {op : Op} {s : Frontier} (h : stateAt f st ⟨b, i⟩ = some s) (hop : opAt f ⟨b, i⟩ = some op) :
    stateAt f st ⟨b, i + 1⟩ = some (step op s) := by
  obtain ⟨blk, e, h1, h2, rfl⟩ := stateAt_some.1 h
  obtain ⟨blk', h3, h4⟩ := opAt_some.1 hop
  rw [h1] at h3
  cases h3
  refine stateAt_some.2 ⟨blk, e, h1, h2, ?_⟩
  simp only [] at h4 ⊢
  rw [List.take_add_one, h4]
  simp [steps]

theorem stateAt_start {b : Nat} {blk : Block} {e : Frontier} (h1 : f[b]? = some blk) (h2 : st b = some e) :
    stateAt f st ⟨b, 0⟩ = some e := stateAt_some.2 ⟨blk, e, h1, h2, by simp [steps]⟩

theorem stateAt_end {b : Nat} {blk : Block} {s : Frontier} (h1 : f[b]? = some blk)
    (h : stateAt f st ⟨b, blk.ops.length⟩ = some s) : ∃ e, st b = some e ∧ out blk e = steps (invoked blk.term) s := by
  obtain ⟨blk', e, h2, h3, rfl⟩ := stateAt_some.1 h
  rw [h1] at h2
  cases h2
  exact ⟨e, h3, by simp [out]⟩

/-! ### A marker is known only behind its definition -/

theorem simple_walk {g : Gr} {entry n : Nat} (h : Reach g entry n) : ∃ S, Walk g entry n (n :: S) ∧ n ∉ S := by
  obtain ⟨S, hS⟩ := reach_walk h
  generalize hk : S.length = k
  induction k using Nat.strong_induction_on generalizing S with
  | _ k ih =>
    cases hS with
    | start => exact ⟨[], .start, by simp⟩
    | @step p _ S' hw he =>
      by_cases hn : n ∈ S'
      · obtain ⟨S'', h1, h2, _⟩ := hw.prefix hn
        have := h2.length_le
        simp only [List.length_cons] at hk
        exact ih S''.length (by omega) S'' h1 rfl
      · exact ⟨S', hw.step he, hn⟩

/-- Within a block. -/
theorem known_in_block (hs : SingleAssignment f) (hd : DefsFirst f) {b : Nat} {S : List Nat}
    (hw : Walk (graphOf f) 0 b (b :: S)) {blk : Block} (hb : f[b]? = some blk) {e : Frontier}
    (he : ∀ m ∈ e, ∀ d op, opAt f d = some op → op.result = some m → d.block ∈ S) :
    ∀ i, i ≤ blk.ops.length → ∀ m ∈ steps (blk.ops.take i) e, ∀ d op, opAt f d = some op → op.result = some m →
      d.block ∈ S ∨ (d.block = b ∧ d.index < i) := by
  intro i
  induction i with
  | zero =>
    intro _ m hm d op h1 h2
    exact Or.inl (he m (by simpa [steps] using hm) d op h1 h2)
  | succ i ih =>
    intro hi m hm d op h1 h2
    have hget : blk.ops[i]? = some blk.ops[i] := List.getElem?_eq_getElem hi
    have hop : opAt f ⟨b, i⟩ = some blk.ops[i] := opAt_some.2 ⟨blk, hb, hget⟩
    rw [List.take_add_one, hget] at hm
    simp only [steps, List.foldl_append, Option.toList_some, List.foldl_cons, List.foldl_nil] at hm
    rcases adv_origin (mem_step.1 hm) with h | h | h
    · rcases ih (by omega) m h d op h1 h2 with h | ⟨h, h'⟩
      · exact Or.inl h
      · exact Or.inr ⟨h, by omega⟩
    · obtain ⟨rfl, _⟩ := site_unique hs h1 hop h2 h
      exact Or.inr ⟨rfl, by simp⟩
    · rcases before_iff.1 (hd.ops _ _ m hop h d op h1 h2) with ⟨h3, h4⟩ | ⟨h3, h4⟩
      · exact Or.inr ⟨h3, by simp only [] at h4; omega⟩
      · left
        rcases List.mem_cons.1 (h4 _ hw) with h5 | h5
        · exact absurd h5 h3
        · exact h5

theorem known_on_walk (hs : SingleAssignment f) (hd : DefsFirst f) (h : Closed f st) {b : Nat} {L : List Nat}
    (hw : Walk (graphOf f) 0 b L) : ∃ S, L = b :: S ∧ ∃ e, st b = some e ∧
      ∀ m ∈ e, ∀ d op, opAt f d = some op → op.result = some m → d.block ∈ S := by
  induction hw with
  | start => exact ⟨[], rfl, [], h.entry, by simp⟩
  | @step p n L hw he ih =>
    obtain ⟨S, rfl, e, h1, h2⟩ := ih
    obtain ⟨blk, hb, hn⟩ := edge_graphOf.1 he
    obtain ⟨e', h3, h4⟩ := h.closed p blk e hb h1 n hn
    refine ⟨p :: S, rfl, e', h3, ?_⟩
    intro m hm d op hop hr
    have hm := h4 m hm
    have hin := known_in_block hs hd hw hb h2 blk.ops.length (le_refl _) m
    rw [List.take_length] at hin
    have hops : m ∈ steps blk.ops e → d.block ∈ p :: S := by
      intro hm
      rcases hin hm d op hop hr with h | ⟨h, _⟩
      · exact List.mem_cons_of_mem _ h
      · rw [h]; exact List.mem_cons_self
    unfold out at hm
    cases ht : blk.term with
    | invoke o x y =>
      rw [ht] at hm
      simp only [invoked, steps, List.foldl_cons, List.foldl_nil] at hm
      rcases adv_origin (mem_step.1 hm) with h | h | h
      · exact hops h
      · rw [hs.2 blk (List.mem_of_getElem? hb) o x y ht] at h
        cases h
      · have : Value.register m ∈ blk.term.operands := by rw [ht]; exact h
        rcases before_iff.1 (hd.terms p blk m hb this d op hop hr) with ⟨h3, h4⟩ | ⟨h3, h4⟩
        · rw [h3]; exact List.mem_cons_self
        · exact h4 _ hw
    | _ => rw [ht] at hm; exact hops hm

/-- A marker which is known at a point is defined before that point. -/
theorem known_before (hs : SingleAssignment f) (hd : DefsFirst f) (h : Closed f st) {p : Site} {s : Frontier}
    (hp : stateAt f st p = some s) (hi : ∀ blk, f[p.block]? = some blk → p.index ≤ blk.ops.length) {m : Nat} (hm : m ∈ s)
    {d : Site} {op : Op} (hop : opAt f d = some op) (hr : op.result = some m) : Before f d p := by
  obtain ⟨blk, e, h1, h2, rfl⟩ := stateAt_some.1 hp
  have hreach : Reach (graphOf f) 0 p.block := reach_graphOf.2 ((closed_some h).1 ⟨e, h2⟩)
  have key : ∀ S, Walk (graphOf f) 0 p.block (p.block :: S) → d.block ∈ S ∨ (d.block = p.block ∧ d.index < p.index) := by
    intro S hw
    obtain ⟨S', h3, e', h4, h5⟩ := known_on_walk hs hd h hw
    cases h3
    rw [h2] at h4
    cases h4
    exact known_in_block hs hd hw h1 h5 p.index (hi blk h1) m hm d op hop hr
  rw [before_iff]
  by_cases hb : d.block = p.block
  · left
    obtain ⟨S, hS, hn⟩ := simple_walk hreach
    rcases key S hS with h | h
    · rw [hb] at h; exact absurd h hn
    · exact h
  · right
    refine ⟨hb, ?_⟩
    intro L hL
    obtain ⟨S, rfl, _⟩ := known_on_walk hs hd h hL
    rcases key S hL with h | h
    · exact List.mem_cons_of_mem _ h
    · exact absurd h.1 hb

/-! ### The plan -/

/-- The operation is found to be redundant in the given state. -/
def Redundant (op : Op) (s : Frontier) : Prop :=
  (op.kind = .stackSave ∧ op.result ≠ none ∧ s ≠ []) ∨ (op.kind = .stackRestore ∧ ∃ m, restored op = some m ∧ m ∈ s)

/-- The operation is processed earlier. -/
def Earlier (q p : Site) : Prop := q.block < p.block ∨ (q.block = p.block ∧ q.index < p.index)

theorem before_earlier (ho : Ordered f) {q p : Site} (hp : Reachable f p.block) (h : Before f q p) : Earlier q p := by
  rcases h with h | ⟨h1, h2⟩
  · exact Or.inr h
  · have := ho q.block p.block hp h2
    exact Or.inl (by omega)

/-- What holds of the plan when the operations before `p` are processed. -/
structure PlanInv (f : Body) (st : States) (p : Site) (pl : Plan) : Prop where
  pairs : ∀ x c, (x, c) ∈ pl.subst → ∃ q op s h, Earlier q p ∧ opAt f q = some op ∧ op.kind = .stackSave ∧ op.result = some x ∧
    stateAt f st q = some s ∧ s.head? = some h ∧ (h = c ∨ (h, c) ∈ pl.subst) ∧
    ∀ d op', opAt f d = some op' → op'.result = some c → Before f d q
  final : ∀ x c, (x, c) ∈ pl.subst → ∀ c', (c, c') ∉ pl.subst
  keys : ∀ q op s x, Earlier q p → opAt f q = some op → op.kind = .stackSave → op.result = some x → stateAt f st q = some s →
    s ≠ [] → ∃ c, (x, c) ∈ pl.subst
  dead : ∀ b i, (b, i) ∈ pl.dead ↔ Earlier ⟨b, i⟩ p ∧ ∃ op s, opAt f ⟨b, i⟩ = some op ∧ stateAt f st ⟨b, i⟩ = some s ∧ Redundant op s

theorem earlier_next {q : Site} {b i : Nat} : Earlier q ⟨b, i + 1⟩ ↔ Earlier q ⟨b, i⟩ ∨ q = ⟨b, i⟩ := by
  obtain ⟨x, y⟩ := q
  unfold Earlier
  simp only [Site.mk.injEq]
  omega

theorem lookup_none_iff {M : List (Nat × Nat)} {x : Nat} : M.lookup x = none ↔ ∀ c, (x, c) ∉ M := by
  induction M with
  | nil => simp
  | cons p M ih =>
    obtain ⟨a, b⟩ := p
    rw [List.lookup_cons]
    by_cases h : x = a
    · subst h
      simp only [beq_self_eq_true]
      constructor
      · intro h; cases h
      · intro h; exact (h b (by simp)).elim
    · have hx : (x == a) = false := by simpa using h
      rw [hx]
      simp only [ih, List.mem_cons, Prod.mk.injEq, not_or, not_and]
      exact ⟨fun h1 c => ⟨fun e => absurd e h, h1 c⟩, fun h1 c => (h1 c).2⟩

theorem resolve_spec {M : List (Nat × Nat)} (hf : ∀ x c, (x, c) ∈ M → ∀ c', (c, c') ∉ M) (h : Nat) :
    ∃ c, resolve M h = some c ∧ (∀ c', (c, c') ∉ M) ∧ (h = c ∨ (h, c) ∈ M) := by
  unfold resolve
  rw [resolveFuel]
  cases hl : M.lookup h with
  | none => exact ⟨h, rfl, lookup_none_iff.1 hl, Or.inl rfl⟩
  | some c =>
    have hm := lookup_mem hl
    have hc := hf h c hm
    have hne : c ≠ h := fun e => hc c (by rw [← e] at hm; exact hm)
    simp only [hne, if_false]
    cases M with
    | nil => cases hm
    | cons a M =>
      rw [List.length_cons, resolveFuel, lookup_none_iff.2 hc]
      exact ⟨c, rfl, hc, Or.inr hm⟩

theorem planOp_spec (hs : SingleAssignment f) (hd : DefsFirst f) (hc : Closed f st) (ho : Ordered f) {b i : Nat} {op : Op}
    (hop : opAt f ⟨b, i⟩ = some op) {s : Frontier} (hst : stateAt f st ⟨b, i⟩ = some s) {pl : Plan}
    (hp : PlanInv f st ⟨b, i⟩ pl) : ∃ pl', planOp b i op s pl = some pl' ∧ PlanInv f st ⟨b, i + 1⟩ pl' := by
  have hreach : Reachable f b := by
    obtain ⟨_, e, _, h2, _⟩ := stateAt_some.1 hst
    exact (closed_some hc).1 ⟨e, h2⟩
  have hskip : ¬ Redundant op s → PlanInv f st ⟨b, i + 1⟩ pl := by
    intro hn
    refine ⟨?_, hp.final, ?_, ?_⟩
    · intro x c hx
      obtain ⟨q, o, s', h, h1, h2⟩ := hp.pairs x c hx
      exact ⟨q, o, s', h, earlier_next.2 (Or.inl h1), h2⟩
    · intro q o s' x h1 h2 h3 h4 h5 h6
      rcases earlier_next.1 h1 with h1 | rfl
      · exact hp.keys q o s' x h1 h2 h3 h4 h5 h6
      · rw [hop] at h2; cases h2
        rw [hst] at h5; cases h5
        exact (hn (Or.inl ⟨h3, by rw [h4]; simp, h6⟩)).elim
    · intro b' i'
      rw [hp.dead b' i', earlier_next]
      constructor
      · rintro ⟨h1, h2⟩; exact ⟨Or.inl h1, h2⟩
      · rintro ⟨h1, o, s', h2, h3, h4⟩
        rcases h1 with h1 | h1
        · exact ⟨h1, o, s', h2, h3, h4⟩
        · cases h1
          rw [hop] at h2; cases h2
          rw [hst] at h3; cases h3
          exact (hn h4).elim
  have hdead : Redundant op s → ∀ b' i', (b', i') ∈ (b, i) :: pl.dead ↔ Earlier ⟨b', i'⟩ ⟨b, i + 1⟩ ∧
      ∃ op s, opAt f ⟨b', i'⟩ = some op ∧ stateAt f st ⟨b', i'⟩ = some s ∧ Redundant op s := by
    intro hr b' i'
    rw [List.mem_cons, hp.dead b' i', earlier_next]
    constructor
    · rintro (h | ⟨h1, h2⟩)
      · cases h; exact ⟨Or.inr rfl, op, s, hop, hst, hr⟩
      · exact ⟨Or.inl h1, h2⟩
    · rintro ⟨h1 | h1, h2⟩
      · exact Or.inr ⟨h1, h2⟩
      · cases h1; exact Or.inl rfl
  unfold planOp
  split
  · rename_i hk
    cases hr : op.result with
    | none =>
      refine ⟨pl, rfl, hskip ?_⟩
      rintro (⟨_, h, _⟩ | ⟨h, _⟩)
      · exact h hr
      · rw [hk] at h; cases h
    | some x =>
      cases hh : s.head? with
      | none =>
        refine ⟨pl, rfl, hskip ?_⟩
        rintro (⟨_, _, h⟩ | ⟨h, _⟩)
        · exact h (List.head?_eq_none_iff.1 hh)
        · rw [hk] at h; cases h
      | some h =>
        have hmem : h ∈ s := List.mem_of_mem_head? hh
        have hne : s ≠ [] := List.ne_nil_of_mem hmem
        obtain ⟨c, h1, h2, h3⟩ := resolve_spec hp.final h
        simp only [h1, Option.map_some]
        refine ⟨_, rfl, ?_⟩
        have hi : ∀ blk, f[(⟨b, i⟩ : Site).block]? = some blk → (⟨b, i⟩ : Site).index ≤ blk.ops.length := by
          intro blk hb
          obtain ⟨blk', h4, h5⟩ := opAt_some.1 hop
          rw [hb] at h4
          cases h4
          exact (List.getElem?_eq_some_iff.1 h5).1.le
        have hknown : ∀ d op', opAt f d = some op' → op'.result = some h → Before f d ⟨b, i⟩ :=
          fun d op' h4 h5 => known_before hs hd hc hst hi hmem h4 h5
        have hcb : ∀ d op', opAt f d = some op' → op'.result = some c → Before f d ⟨b, i⟩ := by
          intro d op' h4 h5
          rcases h3 with rfl | h3
          · exact hknown d op' h4 h5
          · obtain ⟨q, o, s', h', e1, e2, e3, e4, e5, e6, e7, e8⟩ := hp.pairs h c h3
            exact before_trans' hreach (e8 d op' h4 h5) (hknown q o e2 e4)
        have hcx : c ≠ x := by
          rintro rfl
          exact before_irrefl _ (hcb _ op hop hr)
        refine ⟨?_, ?_, ?_, hdead (Or.inl ⟨hk, by rw [hr]; simp, hne⟩)⟩
        · intro x' c' hx
          rcases List.mem_cons.1 hx with hx | hx
          · cases hx
            exact ⟨⟨b, i⟩, op, s, h, earlier_next.2 (Or.inr rfl), hop, hk, hr, hst, hh,
              h3.imp id (fun h => List.mem_cons_of_mem _ h), hcb⟩
          · obtain ⟨q, o, s', h', e1, e2, e3, e4, e5, e6, e7, e8⟩ := hp.pairs x' c' hx
            exact ⟨q, o, s', h', earlier_next.2 (Or.inl e1), e2, e3, e4, e5, e6, e7.imp id (fun h => List.mem_cons_of_mem _ h), e8⟩
        · intro x' c' hx c'' hx'
          rcases List.mem_cons.1 hx with hx | hx <;> rcases List.mem_cons.1 hx' with hx' | hx'
          · cases hx; cases hx'; exact hcx rfl
          · cases hx; exact h2 _ hx'
          · cases hx'
            obtain ⟨q, o, s', h', e1, e2, e3, e4, e5, e6, e7, e8⟩ := hp.pairs x' x hx
            have h9 := e8 _ op hop hr
            have hq : Reachable f q.block := by
              obtain ⟨_, e, _, h2, _⟩ := stateAt_some.1 e5
              exact (closed_some hc).1 ⟨e, h2⟩
            have h10 := before_earlier ho hq h9
            unfold Earlier at e1 h10
            simp only [] at e1 h10
            omega
          · exact hp.final x' c' hx c'' hx'
        · intro q o s' x' e1 e2 e3 e4 e5 e6
          rcases earlier_next.1 e1 with e1 | rfl
          · obtain ⟨c', hc'⟩ := hp.keys q o s' x' e1 e2 e3 e4 e5 e6
            exact ⟨c', List.mem_cons_of_mem _ hc'⟩
          · rw [hop] at e2; cases e2
            rw [hr] at e4; cases e4
            exact ⟨c, List.mem_cons_self⟩
  · rename_i hk
    have hns : op.kind ≠ .stackSave := by rw [hk]; simp
    split
    · rename_i m hm
      unfold holds
      by_cases h : m ∈ s
      · simp only [h, decide_true, if_true]
        refine ⟨_, rfl, ?_, hp.final, ?_, hdead (Or.inr ⟨hk, m, hm, h⟩)⟩
        · intro x c hx
          obtain ⟨q, o, s', h, h1, h2⟩ := hp.pairs x c hx
          exact ⟨q, o, s', h, earlier_next.2 (Or.inl h1), h2⟩
        · intro q o s' x h1 h2 h3 h4 h5 h6
          rcases earlier_next.1 h1 with h1 | rfl
          · exact hp.keys q o s' x h1 h2 h3 h4 h5 h6
          · rw [hop] at h2; cases h2
            exact (hns h3).elim
      · simp only [h, decide_false, Bool.false_eq_true, if_false]
        refine ⟨pl, rfl, hskip ?_⟩
        rintro (⟨h1, _⟩ | ⟨_, m', h1, h2⟩)
        · exact hns h1
        · rw [hm] at h1; cases h1; exact h h2
    · rename_i hm
      refine ⟨pl, rfl, hskip ?_⟩
      rintro (⟨h1, _⟩ | ⟨_, m', h1, h2⟩)
      · exact hns h1
      · rw [hm] at h1; cases h1
  · rename_i h1 h2
    refine ⟨pl, rfl, hskip ?_⟩
    rintro (⟨h, _⟩ | ⟨h, _⟩)
    · exact h1 h
    · exact h2 h

theorem planOps_spec (hs : SingleAssignment f) (hd : DefsFirst f) (hc : Closed f st) (ho : Ordered f) {b : Nat} {blk : Block}
    (hb : f[b]? = some blk) : ∀ (n i : Nat), i + n = blk.ops.length → ∀ (s : Frontier), stateAt f st ⟨b, i⟩ = some s →
      ∀ (pl : Plan), PlanInv f st ⟨b, i⟩ pl → ∃ pl', planOps b i (blk.ops.drop i) s pl = some pl' ∧ PlanInv f st ⟨b, blk.ops.length⟩ pl' := by
  intro n
  induction n with
  | zero =>
    intro i hi s _ pl hp
    have : i = blk.ops.length := by omega
    subst this
    rw [List.drop_length]
    exact ⟨pl, rfl, hp⟩
  | succ n ih =>
    intro i hi s hst pl hp
    have hlt : i < blk.ops.length := by omega
    have hget : blk.ops[i]? = some blk.ops[i] := List.getElem?_eq_getElem hlt
    have hop : opAt f ⟨b, i⟩ = some blk.ops[i] := opAt_some.2 ⟨blk, hb, hget⟩
    obtain ⟨pl', h1, h2⟩ := planOp_spec hs hd hc ho hop hst hp
    rw [List.drop_eq_getElem_cons hlt, planOps, h1]
    exact ih (i + 1) (by omega) _ (stateAt_next hst hop) pl' h2

theorem planInv_block {b n : Nat} {pl : Plan} (h : PlanInv f st ⟨b, n⟩ pl)
    (hn : ∀ i op s, opAt f ⟨b, i⟩ = some op → stateAt f st ⟨b, i⟩ = some s → i < n) : PlanInv f st ⟨b + 1, 0⟩ pl := by
  have key : ∀ q op s, opAt f q = some op → stateAt f st q = some s → (Earlier q ⟨b, n⟩ ↔ Earlier q ⟨b + 1, 0⟩) := by
    rintro ⟨x, y⟩ op s h1 h2
    unfold Earlier
    simp only []
    constructor
    · omega
    · intro h
      by_cases hx : x = b
      · subst hx
        exact Or.inr ⟨rfl, hn y op s h1 h2⟩
      · omega
  refine ⟨?_, h.final, ?_, ?_⟩
  · intro x c hx
    obtain ⟨q, o, s', h', e1, e2, e3, e4, e5, e6⟩ := h.pairs x c hx
    exact ⟨q, o, s', h', (key q o s' e2 e5).1 e1, e2, e3, e4, e5, e6⟩
  · intro q o s' x e1 e2 e3 e4 e5 e6
    exact h.keys q o s' x ((key q o s' e2 e5).2 e1) e2 e3 e4 e5 e6
  · intro b' i'
    rw [h.dead b' i']
    constructor
    · rintro ⟨h1, o, s, h2, h3, h4⟩
      exact ⟨(key _ o s h2 h3).1 h1, o, s, h2, h3, h4⟩
    · rintro ⟨h1, o, s, h2, h3, h4⟩
      exact ⟨(key _ o s h2 h3).2 h1, o, s, h2, h3, h4⟩

theorem planBlock_spec (hs : SingleAssignment f) (hd : DefsFirst f) (hc : Closed f st) (ho : Ordered f) {b : Nat} {pl : Plan}
    (hp : PlanInv f st ⟨b, 0⟩ pl) : ∃ pl', planBlock f st pl b = some pl' ∧ PlanInv f st ⟨b + 1, 0⟩ pl' := by
  unfold planBlock
  split
  · rename_i blk e hb he
    obtain ⟨pl', h1, h2⟩ := planOps_spec hs hd hc ho hb blk.ops.length 0 (by omega) e (stateAt_start hb he) pl hp
    refine ⟨pl', h1, planInv_block h2 ?_⟩
    intro i op s h _
    obtain ⟨blk', h3, h4⟩ := opAt_some.1 h
    rw [hb] at h3
    cases h3
    exact (List.getElem?_eq_some_iff.1 h4).1
  · rename_i hn
    refine ⟨pl, rfl, planInv_block hp ?_⟩
    intro i op s _ h
    obtain ⟨blk, e, h1, h2, _⟩ := stateAt_some.1 h
    exact (hn blk e h1 h2).elim

/-- What the plan consists of. -/
structure PlanOk (f : Body) (st : States) (pl : Plan) : Prop where
  pairs : ∀ x c, (x, c) ∈ pl.subst → ∃ q op s h, opAt f q = some op ∧ op.kind = .stackSave ∧ op.result = some x ∧
    stateAt f st q = some s ∧ s.head? = some h ∧ (h = c ∨ (h, c) ∈ pl.subst) ∧
    ∀ d op', opAt f d = some op' → op'.result = some c → Before f d q
  final : ∀ x c, (x, c) ∈ pl.subst → ∀ c', (c, c') ∉ pl.subst
  keys : ∀ q op s x, opAt f q = some op → op.kind = .stackSave → op.result = some x → stateAt f st q = some s →
    s ≠ [] → ∃ c, (x, c) ∈ pl.subst
  dead : ∀ b i, (b, i) ∈ pl.dead ↔ ∃ op s, opAt f ⟨b, i⟩ = some op ∧ stateAt f st ⟨b, i⟩ = some s ∧ Redundant op s

theorem plan_spec (hs : SingleAssignment f) (hd : DefsFirst f) (hc : Closed f st) (ho : Ordered f) :
    ∃ pl, plan f st = some pl ∧ PlanOk f st pl := by
  obtain ⟨pl, h1, h2⟩ := Ferlium.Graph.foldlM_inv (f := planBlock f st) (fun pre pl => PlanInv f st ⟨pre.length, 0⟩ pl)
    (l := List.range f.length) (init := ⟨[], []⟩)
    (by
      have hno : ∀ q : Site, ¬ Earlier q ⟨0, 0⟩ := by
        intro q h
        unfold Earlier at h
        simp only [] at h
        omega
      refine ⟨?_, ?_, ?_, ?_⟩
      · intro x c h; cases h
      · intro x c h; cases h
      · intro q _ _ _ h; exact (hno q h).elim
      · intro b i
        constructor
        · intro h; cases h
        · rintro ⟨h, _⟩; exact (hno _ h).elim)
    (by
      intro pre x post s hl hp
      have hx : x = pre.length := by
        have : (List.range f.length)[pre.length]? = some x := by rw [hl]; simp
        rw [List.getElem?_range] at this
        · cases this; rfl
        · have := congrArg List.length hl
          simp at this
          omega
      subst hx
      obtain ⟨pl', h1, h2⟩ := planBlock_spec hs hd hc ho hp
      exact ⟨pl', h1, by simpa using h2⟩)
  refine ⟨pl, h1, ?_⟩
  simp only [List.length_range] at h2
  have hall : ∀ q op, opAt f q = some op → Earlier q ⟨f.length, 0⟩ := by
    intro q op h
    obtain ⟨blk, h1, _⟩ := opAt_some.1 h
    exact Or.inl (List.getElem?_eq_some_iff.1 h1).1
  refine ⟨?_, h2.final, ?_, ?_⟩
  · intro x c hx
    obtain ⟨q, op, s, h, _, h3⟩ := h2.pairs x c hx
    exact ⟨q, op, s, h, h3⟩
  · intro q op s x e1 e2 e3 e4 e5
    exact h2.keys q op s x (hall q op e1) e1 e2 e3 e4 e5
  · intro b i
    rw [h2.dead b i]
    constructor
    · rintro ⟨_, h⟩; exact h
    · rintro ⟨op, s, h1, h2⟩; exact ⟨hall _ op h1, op, s, h1, h2⟩

end Ferlium.StackRegion
