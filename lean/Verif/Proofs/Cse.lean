import Verif.Model.Cse
import Verif.Proofs.NegationSim

/-! Numbering of address computations: one operation and one block. -/
namespace Ferlium.Cse

open Ferlium.Mir Ferlium.Dominance Ferlium.Edit
open Ferlium.Negation (Site opAt opAt_some Before before_iff before_op before_jump before_irrefl not_before_start site_unique)

variable {f : Body}

/-! ### Specification -/

/-- The rule of the verifier that a register is defined before it is used: on every path to a use there is the
definition. -/
structure DefsFirst (f : Body) : Prop where
  ops : ∀ p op r, opAt f p = some op → Value.register r ∈ op.operands →
    ∀ d op', opAt f d = some op' → op'.result = some r → Before f d p
  terms : ∀ (b : Nat) (blk : Block) (r : Nat), f[b]? = some blk → Value.register r ∈ blk.term.operands →
    ∀ d op', opAt f d = some op' → op'.result = some r → Before f d ⟨b, blk.ops.length⟩

/-- Operations which compute a place define a register. -/
def Named (f : Body) : Prop := ∀ b ∈ f, ∀ op ∈ b.ops, numberable op.kind = true → ∃ r, op.result = some r

/-- Dominating blocks come first. -/
def Ordered (f : Body) : Prop := ∀ a b, Reachable f b → Dominates (graphOf f) 0 a b → a ≤ b

/-! ### Maps -/

theorem look_filter {a : Table} (P : Expr → Bool) {e : Expr} :
    look (a.filter fun p => P p.1) e = if P e then look a e else none := by
  unfold look
  induction a with
  | nil => simp
  | cons p a ih =>
    rw [List.filter_cons]
    by_cases hp : P p.1 = true
    · rw [if_pos hp, List.lookup_cons, List.lookup_cons]
      by_cases he : e = p.1
      · subst he; simp [hp]
      · simp only [beq_eq_false_iff_ne.2 he]
        exact ih
    · rw [if_neg hp, List.lookup_cons]
      by_cases he : e = p.1
      · subst he
        rw [ih]; simp [hp]
      · simp only [beq_eq_false_iff_ne.2 he]
        exact ih

theorem look_put {a : Table} {e e' : Expr} {v : Avail} : look (put a e v) e' = if e' = e then some v else look a e' := by
  have h1 := look_filter (a := a) (fun x => decide (x ≠ e)) (e := e')
  unfold put
  unfold look at h1 ⊢
  rw [List.lookup_cons]
  by_cases h : e' = e
  · simp [h]
  · simp only [beq_eq_false_iff_ne.2 h, if_neg h]
    rw [h1]
    simp [h]

theorem look_del {a : Table} {e e' : Expr} : look (del a e) e' = if e' = e then none else look a e' := by
  unfold del
  have := look_filter (a := a) (fun x => decide (x ≠ e)) (e := e')
  rw [this]
  by_cases h : e' = e <;> simp [h]

/-- The keys of a map. -/
def keys (a : Table) : List Expr := a.map Prod.fst

theorem keys_filter {a : Table} (P : Expr × Avail → Bool) (h : (keys a).Nodup) : (keys (a.filter P)).Nodup :=
  h.sublist ((List.filter_sublist).map _)

theorem keys_put {a : Table} {e : Expr} {v : Avail} (h : (keys a).Nodup) : (keys (put a e v)).Nodup := by
  unfold put keys
  rw [List.map_cons, List.nodup_cons]
  refine ⟨?_, keys_filter _ h⟩
  intro hm
  obtain ⟨p, h1, h2⟩ := List.mem_map.1 hm
  have := (List.mem_filter.1 h1).2
  simp [h2] at this

theorem keys_del {a : Table} {e : Expr} (h : (keys a).Nodup) : (keys (del a e)).Nodup := keys_filter _ h

theorem look_mem {a : Table} (h : (keys a).Nodup) {e : Expr} {v : Avail} : look a e = some v ↔ (e, v) ∈ a := by
  unfold look
  induction a with
  | nil => simp
  | cons p a ih =>
    unfold keys at h
    rw [List.map_cons, List.nodup_cons] at h
    rw [List.lookup_cons]
    by_cases he : e = p.1
    · subst he
      simp only [beq_self_eq_true, List.mem_cons]
      constructor
      · intro h'; cases h'; exact Or.inl rfl
      · rintro (h' | h')
        · rw [← h']
        · exact absurd (List.mem_map.2 ⟨_, h', rfl⟩) h.1
    · simp only [beq_eq_false_iff_ne.2 he, List.mem_cons]
      rw [ih h.2]
      constructor
      · exact Or.inr
      · rintro (h' | h')
        · rw [← h'] at he; exact absurd rfl he
        · exact h'

/-- Undo some entries of the log. -/
def undoAll : Log → Table → Table
  | [], a => a
  | (e, some v) :: u, a => undoAll u (put a e v)
  | (e, none) :: u, a => undoAll u (del a e)

theorem undoTo_append (u : Log) : ∀ (new : Log) (a : Table), undoTo u.length (new ++ u) a = (undoAll new a, u) := by
  intro new
  induction new with
  | nil =>
    intro a
    cases u with
    | nil => rfl
    | cons p u => obtain ⟨e, p⟩ := p; simp [undoTo, undoAll]
  | cons p new ih =>
    intro a
    obtain ⟨e, p⟩ := p
    have hlt : u.length < (new.append u).length + 1 := by
      show u.length < (new ++ u).length + 1
      rw [List.length_append]; omega
    cases p with
    | none =>
      show (if _ then undoTo u.length (new ++ u) (del a e) else _) = _
      rw [if_pos hlt]; exact ih _
    | some v =>
      show (if _ then undoTo u.length (new ++ u) (put a e v) else _) = _
      rw [if_pos hlt]; exact ih _

theorem undoAll_append (n1 n2 : Log) : ∀ (a : Table), undoAll (n1 ++ n2) a = undoAll n2 (undoAll n1 a) := by
  induction n1 with
  | nil => intro a; rfl
  | cons p n1 ih =>
    intro a
    obtain ⟨e, p⟩ := p
    cases p with
    | none => exact ih _
    | some v => exact ih _

/-- Undoing depends on the map only through its lookups. -/
theorem undoAll_congr (n : Log) : ∀ {a a' : Table}, (∀ e, look a e = look a' e) →
    ∀ e, look (undoAll n a) e = look (undoAll n a') e := by
  induction n with
  | nil => intro a a' h e; exact h e
  | cons p n ih =>
    intro a a' h e
    obtain ⟨x, p⟩ := p
    cases p with
    | none =>
      refine ih (fun e' => ?_) e
      rw [look_del, look_del, h]
    | some v =>
      refine ih (fun e' => ?_) e
      rw [look_put, look_put, h]

theorem undoAll_nodup (n : Log) : ∀ {a : Table}, (keys a).Nodup → (keys (undoAll n a)).Nodup := by
  induction n with
  | nil => intro a h; exact h
  | cons p n ih =>
    intro a h
    obtain ⟨x, p⟩ := p
    cases p with
    | none => exact ih (keys_del h)
    | some v => exact ih (keys_put h)

/-- Undoing entries which are all present restores them. -/
theorem look_undoAll_some (n : List (Expr × Avail)) : ∀ {a : Table} {e : Expr}, (keys n).Nodup →
    look (undoAll (n.map fun p => (p.1, some p.2)) a) e = (look n e).or (look a e) := by
  induction n with
  | nil => intro a e _; rfl
  | cons p n ih =>
    intro a e h
    unfold keys at h
    rw [List.map_cons, List.nodup_cons] at h
    rw [List.map_cons, undoAll, ih h.2, look_put]
    unfold look
    rw [List.lookup_cons]
    by_cases he : e = p.1
    · subst he
      have : List.lookup p.1 n = none := by
        cases hl : List.lookup p.1 n with
        | none => rfl
        | some v =>
          have := (look_mem (a := n) h.2).1 hl
          exact absurd (List.mem_map.2 ⟨_, this, rfl⟩) h.1
      simp [this]
    · simp only [beq_eq_false_iff_ne.2 he, if_neg he]

theorem forget_undo {a : Table} (h : (keys a).Nodup) (e : Expr) :
    look (undoAll (((a.filter fun p => materialized p.1.kind).map fun p => (p.1, some p.2)).reverse)
      (forget a []).1) e = look a e := by
  rw [← List.map_reverse]
  have hnd : (keys (a.filter fun p => materialized p.1.kind).reverse).Nodup := by
    unfold keys
    rw [List.map_reverse, List.nodup_reverse]
    exact keys_filter _ h
  rw [look_undoAll_some _ hnd]
  have h1 : look (a.filter fun p => materialized p.1.kind).reverse e = look (a.filter fun p => materialized p.1.kind) e := by
    have : ∀ v, look (a.filter fun p => materialized p.1.kind).reverse e = some v ↔
        look (a.filter fun p => materialized p.1.kind) e = some v := by
      intro v
      rw [look_mem hnd, look_mem (keys_filter _ h), List.mem_reverse]
    exact Option.ext this
  have h2 := look_filter (a := a) (fun x => materialized x.kind) (e := e)
  have h3 := look_filter (a := a) (fun x => !materialized x.kind) (e := e)
  unfold forget
  rw [h1, h2, h3]
  cases materialized e.kind <;> simp

/-! ### The invariants -/

/-- The expression an operation computes, in terms of representatives. -/
def exprOf (M : List (Nat × Nat)) (op : Op) : Expr := ⟨op.kind, op.operands.map (canon M)⟩

/-- No operation after which materialized places are forgotten lies between the two points. -/
def NoPop (f : Body) (q p : Site) : Prop :=
  ∀ z oz, opAt f z = some oz → pops oz.kind = true → Before f q z → ¬ Before f z p

/-- What holds of the merged registers once the operations in `D` are numbered. -/
structure Glob (f : Body) (D : Site → Prop) (M R : List (Nat × Nat)) : Prop where
  pairs : ∀ x c, (x, c) ∈ M → ∃ q q' op op', D q ∧ opAt f q = some op ∧ op.result = some x ∧ opAt f q' = some op' ∧
    op'.result = some c ∧ Before f q' q ∧ q'.block ≤ q.block ∧ numberable op.kind = true ∧ exprOf M op' = exprOf M op ∧
    (materialized op.kind = true → NoPop f q' q)
  final : ∀ x c, (x, c) ∈ M → ∀ c', (c, c') ∉ M
  removed : ∀ b i, (b, i) ∈ R ↔ ∃ op x c, opAt f ⟨b, i⟩ = some op ∧ op.result = some x ∧ (x, c) ∈ M
  complete : Ordered f → ∀ q op, D q → opAt f q = some op → numberable op.kind = true →
    (∀ x c, op.result = some x → (x, c) ∉ M) → ∀ q' op', opAt f q' = some op' → Before f q' q →
    (materialized op.kind = true → NoPop f q' q) → exprOf M op' ≠ exprOf M op

/-- What holds of the available expressions at a point. -/
structure Loc (f : Body) (a : Table) (p : Site) (M : List (Nat × Nat)) : Prop where
  nodup : (keys a).Nodup
  sound : ∀ e v, look a e = some v → ∃ q op, opAt f q = some op ∧ op.result = some v.result ∧ v.block = q.block ∧
    Before f q p ∧ numberable op.kind = true ∧ exprOf M op = e ∧ (∀ c, (v.result, c) ∉ M) ∧
    (materialized op.kind = true → NoPop f q p)
  complete : ∀ q op, opAt f q = some op → Before f q p → numberable op.kind = true →
    (materialized op.kind = true → NoPop f q p) → (look a (exprOf M op)).isSome

theorem lookup_append_of_not {α β : Type} [BEq α] [LawfulBEq α] {n m : List (α × β)} {x : α} (h : ∀ c, (x, c) ∉ n) :
    (n ++ m).lookup x = m.lookup x := by
  induction n with
  | nil => rfl
  | cons p n ih =>
    rw [List.cons_append, List.lookup_cons]
    have : x ≠ p.1 := by
      rintro rfl
      exact h p.2 (by simp)
    rw [beq_eq_false_iff_ne.2 this]
    exact ih fun c hc => h c (by simp [hc])

/-- New merges do not change the expressions of operations whose operands are numbered already. -/
theorem exprOf_stable (hd : DefsFirst f) {D : Site → Prop} {new M : List (Nat × Nat)}
    (hn : ∀ x c, (x, c) ∈ new → ∃ q op, ¬ D q ∧ opAt f q = some op ∧ op.result = some x) {q : Site} {op : Op}
    (hq : opAt f q = some op) (hD : ∀ q' op', opAt f q' = some op' → Before f q' q → D q') :
    exprOf (new ++ M) op = exprOf M op := by
  unfold exprOf
  congr 1
  apply List.map_congr_left
  intro v hv
  unfold canon
  cases v with
  | register r =>
    simp only []
    rw [lookup_append_of_not]
    intro c hc
    obtain ⟨z, oz, h1, h2, h3⟩ := hn r c hc
    exact h1 (hD z oz h2 (hd.ops q op r hq hv z oz h2 h3))
  | _ => rfl

theorem Loc.grow (hs : SingleAssignment f) (hd : DefsFirst f) {D : Site → Prop} {a : Table} {p : Site}
    {new M : List (Nat × Nat)} (h : Loc f a p M)
    (hn : ∀ x c, (x, c) ∈ new → ∃ q op, ¬ D q ∧ opAt f q = some op ∧ op.result = some x)
    (hp : ∀ q' op', opAt f q' = some op' → Before f q' p → D q')
    (hD : ∀ q q' op', D q → opAt f q' = some op' → Before f q' q → D q') : Loc f a p (new ++ M) := by
  have hst : ∀ q op, opAt f q = some op → Before f q p → exprOf (new ++ M) op = exprOf M op := fun q op h1 h2 =>
    exprOf_stable hd hn h1 fun q' op' h3 h4 => hD q q' op' (hp q op h1 h2) h3 h4
  refine ⟨h.nodup, ?_, ?_⟩
  · intro e v he
    obtain ⟨q, op, h1, h2, h3, h4, h5, h6, h7, h8⟩ := h.sound e v he
    refine ⟨q, op, h1, h2, h3, h4, h5, by rw [hst q op h1 h4]; exact h6, ?_, h8⟩
    intro c hc
    rcases List.mem_append.1 hc with hc | hc
    · obtain ⟨z, oz, k1, k2, k3⟩ := hn _ _ hc
      obtain ⟨rfl, -⟩ := site_unique hs k2 h1 k3 h2
      exact k1 (hp _ _ h1 h4)
    · exact h7 c hc
  · intro q op h1 h2 h3 h4
    rw [hst q op h1 h2]
    exact h.complete q op h1 h2 h3 h4

theorem before_trans' {a b c : Site} (hc : Reachable f c.block) (h1 : Before f a b)
    (h2 : Before f b c) : Before f a c := by
  rw [before_iff] at h1 h2 ⊢
  rcases h1 with ⟨h1, h1'⟩ | ⟨h1, h1'⟩ <;> rcases h2 with ⟨h2, h2'⟩ | ⟨h2, h2'⟩
  · exact Or.inl ⟨h1.trans h2, by omega⟩
  · right; rw [h1]; exact ⟨h2, h2'⟩
  · right; rw [← h2]; exact ⟨h1, h1'⟩
  · right
    refine ⟨fun hac => ?_, dom_trans h1' h2'⟩
    rw [hac] at h1 h1'
    exact h1 (dom_antisymm (reach_graphOf.2 hc) h2' h1').symm.symm

theorem before_next {b i : Nat} {q : Site} (h : Before f q ⟨b, i⟩) : Before f q ⟨b, i + 1⟩ := by
  rcases h with ⟨h1, h2⟩ | ⟨h1, h2⟩
  · exact Or.inl ⟨h1, by simp only [] at h2 ⊢; omega⟩
  · exact Or.inr ⟨h1, h2⟩

theorem before_self {b i : Nat} : Before f ⟨b, i⟩ ⟨b, i + 1⟩ := Or.inl ⟨rfl, Nat.lt_succ_self _⟩

theorem pops_not_numberable {k : Kind} (h : pops k = true) : numberable k = false := by
  cases k <;> simp [pops] at h <;> rfl

theorem materialized_numberable {k : Kind} (h : materialized k = true) : numberable k = true := by
  cases k <;> simp [materialized] at h <;> rfl

/-- The situation in front of the operation at `p`. -/
structure Front (f : Body) (D : Site → Prop) (p : Site) : Prop where
  closed : ∀ q q' op', D q → opAt f q' = some op' → Before f q' q → D q'
  before : ∀ q' op', opAt f q' = some op' → Before f q' p → D q'
  fresh : ¬ D p
  reach : Reachable f p.block

/-- An operation which does not change the merged registers nor is numbered. -/
theorem glob_skip {D : Site → Prop} {p : Site} {op : Op} {M R : List (Nat × Nat)} (h : Glob f D M R)
    (hop : opAt f p = some op) (hk : numberable op.kind = false) : Glob f (fun q => D q ∨ q = p) M R := by
  refine ⟨?_, h.final, h.removed, ?_⟩
  · intro x c hx
    obtain ⟨q, q', o, o', h1, h2⟩ := h.pairs x c hx
    exact ⟨q, q', o, o', Or.inl h1, h2⟩
  · intro ho q o hq h1 h2 h3
    rcases hq with hq | rfl
    · exact h.complete ho q o hq h1 h2 h3
    · rw [hop] at h1; cases h1; rw [hk] at h2; cases h2

theorem numberOp_spec (hs : SingleAssignment f) (hd : DefsFirst f) (hN : Named f) {D : Site → Prop} {b i : Nat}
    (hF : Front f D ⟨b, i⟩) {op : Op} (hop : opAt f ⟨b, i⟩ = some op) {s : State} (u : Log)
    (hG : Glob f D s.merged s.removed) (hL : Loc f s.available ⟨b, i⟩ s.merged) :
    ∃ s' new l, numberOp b i op s u = some (s', new ++ u) ∧ Glob f (fun q => D q ∨ q = ⟨b, i⟩) s'.merged s'.removed ∧
      Loc f s'.available ⟨b, i + 1⟩ s'.merged ∧ (∀ e, look (undoAll new s'.available) e = look s.available e) ∧
      s'.merged = l ++ s.merged ∧ ∀ x c, (x, c) ∈ l → op.result = some x := by
  obtain ⟨blk, hblk, hmem⟩ := Negation.opAt_mem hop
  have hback : ∀ q o, opAt f q = some o → Before f q ⟨b, i + 1⟩ → q = ⟨b, i⟩ ∧ o = op ∨ Before f q ⟨b, i⟩ := by
    intro q o h1 h2
    rcases before_op h2 with rfl | h2
    · rw [hop] at h1; cases h1; exact Or.inl ⟨rfl, rfl⟩
    · exact Or.inr h2
  have hNP : ∀ q, pops op.kind = false → NoPop f q ⟨b, i⟩ → NoPop f q ⟨b, i + 1⟩ := by
    intro q hk h z oz h1 h2 h3 h4
    rcases hback z oz h1 h4 with ⟨rfl, rfl⟩ | h4
    · rw [hk] at h2; cases h2
    · exact h z oz h1 h2 h3 h4
  have hNP' : ∀ q, NoPop f q ⟨b, i + 1⟩ → NoPop f q ⟨b, i⟩ := fun q h z oz h1 h2 h3 h4 => h z oz h1 h2 h3 (before_next h4)
  unfold numberOp
  by_cases hp : pops op.kind = true
  · have hnn := pops_not_numberable hp
    rw [if_pos hp]
    refine ⟨_, _, [], rfl, glob_skip hG hop hnn, ?_, fun e => forget_undo hL.nodup e, rfl, by simp⟩
    have hlf := fun e => look_filter (a := s.available) (fun x => !materialized x.kind) (e := e)
    refine ⟨keys_filter _ hL.nodup, ?_, ?_⟩
    · intro e v he
      have he : look (List.filter (fun p => !materialized p.1.kind) s.available) e = some v := he
      rw [hlf] at he
      by_cases hm : materialized e.kind = true
      · simp [hm] at he
      · simp only [Bool.eq_false_iff.2 hm, Bool.not_false, if_true] at he
        obtain ⟨q, o, h1, h2, h3, h4, h5, h6, h7, h8⟩ := hL.sound e v he
        refine ⟨q, o, h1, h2, h3, before_next h4, h5, h6, h7, ?_⟩
        intro hm'
        rw [← h6] at hm
        exact absurd hm' hm
    · intro q o h1 h2 h3 h4
      rcases hback q o h1 h2 with ⟨rfl, rfl⟩ | h2
      · rw [hnn] at h3; cases h3
      · have h4 : materialized o.kind = false := by
          cases hm : materialized o.kind with
          | false => rfl
          | true => exact absurd before_self (h4 hm _ op hop hp h2)
        have := hL.complete q o h1 h2 h3 (by rw [h4]; simp)
        show (look (List.filter (fun p => !materialized p.1.kind) s.available) _).isSome
        rw [hlf]
        have hm : materialized (exprOf s.merged o).kind = false := h4
        rw [hm]
        exact this
  rw [if_neg hp]
  have hp : pops op.kind = false := Bool.eq_false_iff.2 hp
  by_cases hn : numberable op.kind = true
  swap
  · rw [if_neg hn]
    have hnn : numberable op.kind = false := Bool.eq_false_iff.2 hn
    refine ⟨s, [], [], rfl, glob_skip hG hop hnn, ?_, fun e => rfl, rfl, by simp⟩
    refine ⟨hL.nodup, ?_, ?_⟩
    · intro e v he
      obtain ⟨q, o, h1, h2, h3, h4, h5, h6, h7, h8⟩ := hL.sound e v he
      exact ⟨q, o, h1, h2, h3, before_next h4, h5, h6, h7, fun hm => hNP q hp (h8 hm)⟩
    · intro q o h1 h2 h3 h4
      rcases hback q o h1 h2 with ⟨rfl, rfl⟩ | h2
      · exact absurd h3 hn
      · exact hL.complete q o h1 h2 h3 fun hm => hNP' q (h4 hm)
  rw [if_pos hn]
  obtain ⟨r, hr⟩ := hN blk hblk op hmem hn
  rw [hr]
  simp only [Option.map_some]
  have hrfresh : ∀ c, (r, c) ∉ s.merged := by
    intro c hc
    obtain ⟨q, q', o, o', h1, h2, h3, _⟩ := hG.pairs r c hc
    obtain ⟨rfl, -⟩ := site_unique hs h2 hop h3 hr
    exact hF.fresh h1
  -- inserting the expression
  have insert_case : ∀ old, look s.available ⟨op.kind, op.operands.map (canon s.merged)⟩ = old →
      (∀ a, old = some a → ¬ a.block ≤ b) →
      ∃ s' new l, some (({ s with available := put s.available ⟨op.kind, op.operands.map (canon s.merged)⟩ ⟨r, b⟩ } : State),
        ((⟨op.kind, op.operands.map (canon s.merged)⟩, old) :: u : Log)) = some (s', new ++ u) ∧
        Glob f (fun q => D q ∨ q = ⟨b, i⟩) s'.merged s'.removed ∧
        Loc f s'.available ⟨b, i + 1⟩ s'.merged ∧ (∀ e, look (undoAll new s'.available) e = look s.available e) ∧
        s'.merged = l ++ s.merged ∧ ∀ x c, (x, c) ∈ l → some r = some x := by
    intro old hold hguard
    refine ⟨_, [(⟨op.kind, op.operands.map (canon s.merged)⟩, old)], [], rfl, ?_, ?_, ?_, rfl, by simp⟩
    · refine ⟨?_, hG.final, hG.removed, ?_⟩
      · intro x c hx
        obtain ⟨q, q', o, o', h1, h2⟩ := hG.pairs x c hx
        exact ⟨q, q', o, o', Or.inl h1, h2⟩
      · intro ho q o hq h1 h2 h4 q' o' h5 h6 h3 h7
        rcases hq with hq | rfl
        · exact hG.complete ho q o hq h1 h2 h4 q' o' h5 h6 h3 h7
        · rw [hop] at h1; cases h1
          have hk : o'.kind = op.kind := congrArg Expr.kind h7
          have := hL.complete q' o' h5 h6 (by rw [hk]; exact h2) (by rw [hk]; exact h3)
          have h7' : exprOf s.merged o' = ⟨op.kind, op.operands.map (canon s.merged)⟩ := h7
          rw [h7', hold] at this
          obtain ⟨a, ha⟩ := Option.isSome_iff_exists.1 this
          obtain ⟨q2, o2, k1, k2, k3, k4, _⟩ := hL.sound _ a (hold.trans ha)
          apply hguard a ha
          rw [k3]
          rcases k4 with ⟨k4, _⟩ | ⟨_, k4⟩
          · exact le_of_eq k4
          · exact ho _ _ hF.reach k4
    · refine ⟨keys_put hL.nodup, ?_, ?_⟩
      · intro e v he
        have he : look (put s.available ⟨op.kind, op.operands.map (canon s.merged)⟩ ⟨r, b⟩) e = some v := he
        rw [look_put] at he
        split at he
        · rename_i heq
          cases he
          refine ⟨_, op, hop, hr, rfl, before_self, hn, heq.symm, hrfresh, ?_⟩
          intro _ z oz h1 h2 h3 h4
          rcases hback z oz h1 h4 with ⟨rfl, rfl⟩ | h4
          · exact before_irrefl _ h3
          · exact before_irrefl _ (before_trans' hF.reach h3 h4)
        · obtain ⟨q, o, h1, h2, h3, h4, h5, h6, h7, h8⟩ := hL.sound e v he
          exact ⟨q, o, h1, h2, h3, before_next h4, h5, h6, h7, fun hm => hNP q hp (h8 hm)⟩
      · intro q o h1 h2 h3 h4
        show (look (put s.available _ _) _).isSome
        rw [look_put]
        split
        · rfl
        · rename_i hne
          rcases hback q o h1 h2 with ⟨rfl, rfl⟩ | h2
          · exact absurd rfl hne
          · exact hL.complete q o h1 h2 h3 fun hm => hNP' q (h4 hm)
    · intro e
      cases old with
      | none =>
        show look (del (put s.available _ _) _) e = _
        rw [look_del, look_put]
        split
        · rename_i h; rw [h, hold]
        · rfl
      | some a =>
        show look (put (put s.available _ _) _ _) e = _
        rw [look_put, look_put]
        split
        · rename_i h; rw [h, hold]
        · rfl
  unfold record
  cases hlook : look s.available ⟨op.kind, op.operands.map (canon s.merged)⟩ with
  | none =>
    simp only []
    exact insert_case none hlook (by simp)
  | some a =>
    simp only []
    by_cases hg : a.block ≤ b
    swap
    · rw [if_neg hg]
      exact insert_case (some a) hlook (by rintro _ h; cases h; exact hg)
    rw [if_pos hg]
    obtain ⟨q0, o0, k1, k2, k3, k4, k5, k6, k7, k8⟩ := hL.sound _ a hlook
    have hnew : ∀ x c, (x, c) ∈ [(r, a.result)] → ∃ q op, ¬ D q ∧ opAt f q = some op ∧ op.result = some x := by
      intro x c hx
      simp only [List.mem_singleton, Prod.mk.injEq] at hx
      obtain ⟨rfl, -⟩ := hx
      exact ⟨_, op, hF.fresh, hop, hr⟩
    have hst : ∀ q o, opAt f q = some o → D q → exprOf ((r, a.result) :: s.merged) o = exprOf s.merged o :=
      fun q o h1 h2 => exprOf_stable (new := [(r, a.result)]) hd hnew h1 fun q' o' h3 h4 => hF.closed q q' o' h2 h3 h4
    have hstp : exprOf ((r, a.result) :: s.merged) op = exprOf s.merged op :=
      exprOf_stable (new := [(r, a.result)]) hd hnew hop hF.before
    have hL' := hL.grow (new := [(r, a.result)]) hs hd hnew hF.before hF.closed
    refine ⟨_, [], [(r, a.result)], rfl, ?_, ?_, fun e => rfl, rfl, ?_⟩
    · refine ⟨?_, ?_, ?_, ?_⟩
      · intro x c hx
        rcases List.mem_cons.1 hx with hx | hx
        · cases hx
          refine ⟨_, q0, op, o0, Or.inr rfl, hop, hr, k1, k2, k4, by rw [← k3]; exact hg, hn, ?_, ?_⟩
          · rw [hst q0 o0 k1 (hF.before _ _ k1 k4), hstp, k6]; rfl
          · intro hm
            exact k8 (by have := congrArg Expr.kind k6; rw [show (exprOf s.merged o0).kind = o0.kind from rfl] at this; rw [this]; exact hm)
        · obtain ⟨q, q', o, o', h1, h2, h3, h4, h5, h6, h7, h8, h9, h10⟩ := hG.pairs x c hx
          refine ⟨q, q', o, o', Or.inl h1, h2, h3, h4, h5, h6, h7, h8, ?_, h10⟩
          rw [hst q o h2 h1, hst q' o' h4 (hF.closed _ _ _ h1 h4 h6)]
          exact h9
      · intro x c hx c' hc'
        rcases List.mem_cons.1 hx with hx | hx
        · cases hx
          rcases List.mem_cons.1 hc' with hc' | hc'
          · have e : a.result = r := congrArg Prod.fst hc'
            rw [e] at k2
            obtain ⟨rfl, -⟩ := site_unique hs k1 hop k2 hr
            exact before_irrefl _ k4
          · exact k7 _ hc'
        · rcases List.mem_cons.1 hc' with hc' | hc'
          · have e : c = r := congrArg Prod.fst hc'
            obtain ⟨q, q', o, o', h1, h2, h3, h4, h5, h6, _⟩ := hG.pairs x c hx
            rw [e] at h5
            obtain ⟨rfl, -⟩ := site_unique hs h4 hop h5 hr
            exact hF.fresh (hF.closed _ _ _ h1 hop h6)
          · exact hG.final x c hx c' hc'
      · intro b' i'
        constructor
        · intro h
          rcases List.mem_cons.1 h with h | h
          · cases h
            exact ⟨op, r, a.result, hop, hr, by simp⟩
          · obtain ⟨o, x, c, h1, h2, h3⟩ := (hG.removed b' i').1 h
            exact ⟨o, x, c, h1, h2, List.mem_cons_of_mem _ h3⟩
        · rintro ⟨o, x, c, h1, h2, h3⟩
          rcases List.mem_cons.1 h3 with h3 | h3
          · cases h3
            obtain ⟨h4, -⟩ := site_unique hs h1 hop h2 hr
            cases h4
            simp
          · exact List.mem_cons_of_mem _ ((hG.removed b' i').2 ⟨o, x, c, h1, h2, h3⟩)
      · intro ho q o hq h1 h2 h4 q' o' h5 h6 h3
        rcases hq with hq | rfl
        · rw [hst q o h1 hq, hst q' o' h5 (hF.closed _ _ _ hq h5 h6)]
          exact hG.complete ho q o hq h1 h2 (fun x c hx hc => h4 x c hx (List.mem_cons_of_mem _ hc)) q' o' h5 h6 h3
        · rw [hop] at h1; cases h1
          exact absurd (by simp) (h4 r a.result hr)
    · refine ⟨hL.nodup, ?_, ?_⟩
      · intro e v he
        obtain ⟨q, o, h1, h2, h3, h4, h5, h6, h7, h8⟩ := hL'.sound e v he
        exact ⟨q, o, h1, h2, h3, before_next h4, h5, h6, h7, fun hm => hNP q hp (h8 hm)⟩
      · intro q o h1 h2 h3 h4
        rcases hback q o h1 h2 with ⟨rfl, rfl⟩ | h2
        · show (look s.available (exprOf ((r, a.result) :: s.merged) o)).isSome
          rw [hstp]
          show (look s.available ⟨o.kind, o.operands.map (canon s.merged)⟩).isSome
          rw [hlook]; rfl
        · exact hL'.complete q o h1 h2 h3 fun hm => hNP' q (h4 hm)
    · intro x c hx
      simp only [List.mem_singleton, Prod.mk.injEq] at hx
      rw [hx.1]

end Ferlium.Cse
