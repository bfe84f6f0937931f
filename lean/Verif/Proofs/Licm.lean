import Verif.Model.Licm
import Mathlib.Tactic

/-!
# Moving calls out of loops: the simulation
-/

namespace Ferlium.Licm

/-! ## Specification vocabulary -/

/-- The operation at a site; that of a terminator is after the others. -/
def At (F : Fn) (b i : Nat) (op : Op) : Prop := ∃ blk, F[b]? = some blk ∧ blk.all[i]? = some op

/-- There is a path from the entry to the block through blocks that are not `bad`. -/
inductive Avoids (F : Fn) (bad : Nat → Prop) : Nat → Prop
  | entry : ¬ bad 0 → Avoids F bad 0
  | step {b c : Nat} : Avoids F bad b → c ∈ F.successors b → ¬ bad c → Avoids F bad c

/-- What the verifier of the code checks about every function (verify.rs): one definition for each register,
definitions on all paths to their uses, stack regions nested (a point saved in a block is not restored in
another one when the block goes back to an earlier point after it), no unreachable blocks. -/
structure Wf (F : Fn) : Prop where
  single : ∀ {b i b' i' : Nat} {op op' : Op} {x : Reg}, At F b i op → At F b' i' op' → op.result = some x →
    op'.result = some x → b = b' ∧ i = i'
  terms : ∀ {b : Nat} {blk : Block} {op : Op}, F[b]? = some blk → blk.term.op = some op →
    ownRoot op = none ∧ op.kind ≠ .stackSave ∧ op.kind ≠ .stackRestore ∧ op.kind ≠ .subfield
  calls : ∀ {b i : Nat} {op : Op} {info : CallInfo}, At F b i op → op.kind = .call info → op.result = none
  restores : ∀ {b i : Nat} {op : Op}, At F b i op → op.kind = .stackRestore → op.result = none
  defined : ∀ {b i : Nat} {op : Op} {x : Reg}, At F b i op → .reg x ∈ op.operands →
    ∃ d j op', At F d j op' ∧ op'.result = some x ∧ ((d = b ∧ j < i) ∨ (d ≠ b ∧ ¬ Avoids F (· = d) b))
  nested : ∀ {b i j j' b' : Nat} {save op op' : Op} {m m' : Reg}, At F b i save → save.result = some m → i < j →
    At F b j op → op.kind = .stackRestore → op.operands.head? = some (.reg m') →
    (∀ l o, At F b l o → o.result = some m' → l < i) → b' ≠ b → At F b' j' op' → op'.kind = .stackRestore →
    op'.operands.head? ≠ some (.reg m)
  reachable : ∀ b, b < F.length → Avoids F (fun _ => False) b
  targets : ∀ b c, c ∈ F.successors b → c < F.length

/-- What is known at a point of the text, whatever the way there. -/
inductive Fact where
  | live (r : Reg)
  | init (q : Root)

/-- The operations that establish a fact. -/
def Gives (ρ : Reg → Option Root) (op : Op) : Fact → Prop
  | .live r => ownRoot op = some (.alloca r)
  | .init q => (∃ i o, op.operands[i]? = some o ∧ changes op i = true ∧ place ρ o = some q) ∨
      (ownRoot op = some q ∧ ∀ ty, op.kind ≠ .alloca ty)

/-- New storage is not initialised. -/
def Ends (op : Op) : Fact → Prop
  | .live _ => False
  | .init q => ownRoot op = some q ∧ ∃ ty, op.kind = .alloca ty

/-- The checks that storage is initialised before it is read and exists when it is written, by facts that hold
on all paths. -/
structure Must (F : Fn) (ρ : Reg → Option Root) (tracked : Root → Prop) (facts : Nat → Nat → Fact → Prop) : Prop where
  reads : ∀ {b i p : Nat} {op : Op} {o : Operand} {q : Root}, At F b i op → op.operands[p]? = some o →
    blind op p = false → changes op p = false → place ρ o = some q → tracked q → facts b i (.init q)
  writes : ∀ {b i p : Nat} {op : Op} {o : Operand} {r : Reg}, At F b i op → op.operands[p]? = some o →
    changes op p = true → place ρ o = some (.alloca r) → facts b i (.live r)
  back : ∀ {b i : Nat} {blk : Block} {op : Op} {φ : Fact}, F[b]? = some blk → blk.ops[i]? = some op →
    facts b (i + 1) φ → Gives ρ op φ ∨ (¬ Ends op φ ∧ facts b i φ)
  edge : ∀ {b c : Nat} {blk : Block} {φ : Fact}, F[b]? = some blk → c ∈ F.successors b → facts c 0 φ →
    (∃ op, blk.term.op = some op ∧ Gives ρ op φ) ∨ facts b blk.ops.length φ

variable {V W : Type}

/-- The states before the operations of a run. -/
inductive Reach (sem : Sem V W) (ρ : Reg → Option Root) (F : Fn) (s₀ : State V W) : Nat → Nat → State V W → Prop
  | start : Reach sem ρ F s₀ 0 0 s₀
  | op {b i s t blk o} : Reach sem ρ F s₀ b i s → F[b]? = some blk → blk.ops[i]? = some o →
    Exec sem ρ o s (.next t) → Reach sem ρ F s₀ b (i + 1) t
  | edge {b s t blk c} : F[b]? = some blk → Reach sem ρ F s₀ b blk.ops.length s →
    ExecAll sem ρ blk.term.op.toList s (.next t) → blk.term.target sem ρ s = some c → Reach sem ρ F s₀ c 0 t

/-- The facts hold in the states of runs. -/
def Holds (sem : Sem V W) (ρ : Reg → Option Root) (F : Fn) (tracked : Root → Prop)
    (facts : Nat → Nat → Fact → Prop) (s₀ : State V W) : Prop :=
  ∀ b i s, Reach sem ρ F s₀ b i s →
    (∀ q, tracked q → facts b i (.init q) → s.cells q ≠ none) ∧ ∀ r, facts b i (.live r) → s.live r = true

/-- The state in which a function begins. -/
def Fresh (s : State V W) : Prop :=
  (∀ m, s.marks m = none) ∧ (∀ r, s.live r = false) ∧ (∀ r, s.cells (.alloca r) = none) ∧ ∀ r, s.cells (.dict r) = none

/-- The same ending, up to the contents of one piece of storage. -/
inductive Out.Same (r : Reg) : Out V W → Out V W → Prop
  | running : Same r .running .running
  | stopped {w} : Same r (.stopped w) (.stopped w)
  | left {tag w c c'} : (∀ q, q ≠ .alloca r → c q = c' q) → Same r (.left tag w c) (.left tag w c')

/-! ## Paths -/

theorem Avoids.mono {F : Fn} {bad bad' : Nat → Prop} (h : ∀ b, bad' b → bad b) {b : Nat} (ha : Avoids F bad b) :
    Avoids F bad' b := by
  induction ha with
  | entry h0 => exact .entry fun h' => h0 (h _ h')
  | step _ hc hb ih => exact .step ih hc fun h' => hb (h _ h')

theorem Avoids.good {F : Fn} {bad : Nat → Prop} {b : Nat} (ha : Avoids F bad b) : ¬ bad b := by
  cases ha <;> assumption

theorem Avoids.on {F : Fn} {bad : Nat → Prop} {n d : Nat} (ha : Avoids F bad n) (hd : ¬ Avoids F (· = d) n) :
    Avoids F bad d := by
  induction ha with
  | entry h0 =>
    by_cases h : 0 = d
    · subst h; exact .entry h0
    · exact absurd (.entry h) hd
  | step hb hc hg ih =>
    rename_i b c
    by_cases h : Avoids F (· = d) b
    · by_cases h' : c = d
      · subst h'; exact .step hb hc hg
      · exact absurd (.step h hc h') hd
    · exact ih h

/-! ## Operations -/

theorem after_eq (ρ : Reg → Option Root) (op : Op) (l : List (Option V)) (c : Root → Option V) (q : Root)
    (h : ∀ i o, op.operands[i]? = some o → changes op i = true → place ρ o ≠ some q) : after ρ op l c q = c q := by
  unfold after
  generalize List.range op.operands.length = is
  induction is generalizing c with
  | nil => rfl
  | cons i is ih =>
    rw [List.foldl_cons, ih]
    cases ho : op.operands[i]? with
    | none => simp
    | some o =>
      simp only [Option.bind_some]
      cases hp : place ρ o with
      | none => rfl
      | some q' =>
        simp only
        by_cases hc : changes op i = true
        · simp only [hc, if_true, upd]
          rw [if_neg]
          intro e; exact h i o ho hc (by rw [hp, e])
        · simp [hc]

theorem after_congr (ρ : Reg → Option Root) (op : Op) (l : List (Option V)) (c c' : Root → Option V) (q : Root)
    (h : c q = c' q) : after ρ op l c q = after ρ op l c' q := by
  unfold after
  generalize List.range op.operands.length = is
  induction is generalizing c c' with
  | nil => exact h
  | cons i is ih =>
    rw [List.foldl_cons, List.foldl_cons]
    apply ih
    cases (op.operands[i]?).bind (place ρ) with
    | none => exact h
    | some q' =>
      simp only
      split
      · simp only [upd]; split
        · rfl
        · exact h
      · exact h

/-- Registers keep their values, except the result. -/
theorem Exec.vals {sem : Sem V W} {ρ : Reg → Option Root} {op : Op} {s t : State V W} (h : Exec sem ρ op s (.next t))
    {x : Reg} (hx : op.result ≠ some x ∨ ownRoot op ≠ none) : t.vals x = s.vals x := by
  cases h with
  | save => rfl
  | restore => rfl
  | op h1 h2 h3 h4 =>
    unfold State.define
    cases hr : op.result with
    | none => rfl
    | some r =>
      simp only
      cases ho : ownRoot op with
      | none =>
        simp only [upd]
        rw [if_neg]
        rintro rfl
        rcases hx with hx | hx
        · exact hx hr
        · exact hx ho
      | some q => rfl

/-- Storage that an operation does not change keeps its contents, or is removed. -/
theorem Exec.cells {sem : Sem V W} {ρ : Reg → Option Root} {op : Op} {s t : State V W} (h : Exec sem ρ op s (.next t))
    {q : Root} (hc : ∀ i o, op.operands[i]? = some o → changes op i = true → place ρ o ≠ some q)
    (ho : ownRoot op ≠ some q) :
    t.cells q = s.cells q ∨ (t.cells q = none ∧ op.kind = .stackRestore ∧ ∃ m l x, op.operands.head? = some (.reg m) ∧
      s.marks m = some l ∧ q = .alloca x ∧ l x = false) := by
  cases h with
  | save => exact .inl rfl
  | @restore m l h1 h2 h3 =>
    cases q with
    | alloca x =>
      simp only
      cases hl : l x with
      | true => simp
      | false => exact .inr ⟨by simp, h1, m, l, x, h2, h3, rfl, hl⟩
    | param p => exact .inl rfl
    | dict p => exact .inl rfl
  | op h1 h2 h3 h4 =>
    left
    unfold State.define
    cases hr : op.result with
    | none => exact after_eq _ _ _ _ _ hc
    | some r =>
      simp only
      cases hw : ownRoot op with
      | none => exact after_eq _ _ _ _ _ hc
      | some q' =>
        simp only [upd]
        rw [if_neg (by rintro rfl; exact ho hw)]
        exact after_eq _ _ _ _ _ hc

/-- Saved points change only where they are saved. -/
theorem Exec.marks {sem : Sem V W} {ρ : Reg → Option Root} {op : Op} {s t : State V W} (h : Exec sem ρ op s (.next t))
    (m : Reg) : t.marks m = s.marks m ∨ (op.kind = .stackSave ∧ op.result = some m ∧ t.marks m = some s.live) := by
  cases h with
  | @save m' h1 h2 =>
    by_cases e : m = m'
    · subst e; exact .inr ⟨h1, h2, by simp [upd]⟩
    · left; simp [upd, e]
  | restore => exact .inl rfl
  | op h1 h2 h3 h4 =>
    left
    unfold State.define
    cases hr : op.result with
    | none => rfl
    | some r =>
      simp only
      cases hw : ownRoot op <;> rfl

/-- Storage that exists is removed only by returning to a point before it. -/
theorem Exec.live {sem : Sem V W} {ρ : Reg → Option Root} {op : Op} {s t : State V W} (h : Exec sem ρ op s (.next t))
    {x : Reg} (hx : s.live x = true) :
    t.live x = true ∨ (op.kind = .stackRestore ∧ ∃ m l, op.operands.head? = some (.reg m) ∧ s.marks m = some l ∧
      l x = false) := by
  cases h with
  | save => exact .inl hx
  | @restore m l h1 h2 h3 =>
    cases hl : l x with
    | true => left; simp [hx, hl]
    | false => exact .inr ⟨h1, m, l, h2, h3, hl⟩
  | op h1 h2 h3 h4 =>
    left
    unfold State.define
    cases hr : op.result with
    | none => exact hx
    | some r =>
      simp only
      cases hw : ownRoot op with
      | none => exact hx
      | some q =>
        cases q with
        | alloca y => simp only [upd]; split <;> simp [hx]
        | param _ => exact hx
        | dict _ => exact hx

/-! ## Related states -/

/-- The same state, up to the contents of the storage of `r` and, if `moved`, its existence. -/
structure Rel (moved : Prop) (r : Reg) (s s' : State V W) : Prop where
  vals : s.vals = s'.vals
  world : s.world = s'.world
  cells : ∀ q, q ≠ .alloca r → s.cells q = s'.cells q
  live : ∀ x, (moved → x ≠ r) → s.live x = s'.live x
  marks : ∀ m l, s.marks m = some l → ∃ l', s'.marks m = some l' ∧ ∀ x, (moved → x ≠ r) → l x = l' x

inductive Sim (R : State V W → State V W → Prop) : Step V W → Step V W → Prop
  | stop {w} : Sim R (.stop w) (.stop w)
  | next {s s'} : R s s' → Sim R (.next s) (.next s')

theorem Rel.val {moved : Prop} {r : Reg} {s s' : State V W} (h : Rel moved r s s') (o : Operand) : s.val o = s'.val o := by
  cases o <;> simp [State.val, h.vals]

theorem Rel.args {moved : Prop} {r : Reg} {s s' : State V W} (h : Rel moved r s s') (ρ : Reg → Option Root) {op : Op}
    (ha : ∀ i o, op.operands[i]? = some o → blind op i = false → place ρ o = some (.alloca r) →
      s.cells (.alloca r) = s'.cells (.alloca r)) : s.args ρ op = s'.args ρ op := by
  unfold State.args
  apply List.ext_getElem?
  intro i
  simp only [List.getElem?_mapIdx]
  cases ho : op.operands[i]? with
  | none => rfl
  | some o =>
    simp only [Option.map_some, Option.some.injEq, Prod.mk.injEq]
    refine ⟨h.val o, ?_⟩
    cases hb : blind op i with
    | true => rfl
    | false =>
      simp only [Bool.false_eq_true, if_false, State.content]
      cases hp : place ρ o with
      | none => rfl
      | some q =>
        simp only
        by_cases e : q = .alloca r
        · subst e; exact ha i o ho hb hp
        · exact h.cells q e

/-- An operation that does not change the storage of `r` does the same in both. -/
theorem Rel.exec {moved : Prop} {r : Reg} {s s' : State V W} (h : Rel moved r s s') {sem : Sem V W}
    {ρ : Reg → Option Root} {op : Op}
    (ha : ∀ i o, op.operands[i]? = some o → blind op i = false → place ρ o = some (.alloca r) →
      s.cells (.alloca r) = s'.cells (.alloca r))
    (hc : ∀ i o, op.operands[i]? = some o → changes op i = true → place ρ o ≠ some (.alloca r))
    {t : Step V W} (ht : Exec sem ρ op s t) : ∃ t', Exec sem ρ op s' t' ∧ Sim (Rel moved r) t t' := by
  have hw : s.writable ρ op → s'.writable ρ op := by
    intro hw i o ho hch x hx
    rw [← h.live x]
    · exact hw i o ho hch x hx
    · rintro - rfl
      exact hc i o ho hch hx
  cases ht with
  | @save m h1 h2 =>
    refine ⟨_, .save h1 h2, .next ⟨h.vals, h.world, h.cells, h.live, ?_⟩⟩
    intro m' l hl
    simp only [upd] at hl ⊢
    split at hl
    · cases hl
      rename_i e
      simp only [e, if_true, Option.some.injEq, exists_eq_left']
      exact h.live
    · rename_i e
      simp only [e, if_false]
      exact h.marks m' l hl
  | @restore m l h1 h2 h3 =>
    obtain ⟨l', hl', hag⟩ := h.marks m l h3
    refine ⟨_, .restore h1 h2 hl', .next ⟨h.vals, h.world, ?_, ?_, h.marks⟩⟩
    · intro q hq
      cases q with
      | alloca x =>
        simp only
        rw [hag x (by rintro - rfl; exact hq rfl), h.cells _ hq]
      | param p => exact h.cells _ hq
      | dict p => exact h.cells _ hq
    · intro x hx
      simp only
      rw [hag x hx, h.live x hx]
  | stop h1 h2 h3 h4 =>
    refine ⟨_, .stop h1 h2 (hw h3) ?_, .stop⟩
    rw [← h.args ρ ha, ← h.world]; exact h4
  | @op v l w h1 h2 h3 h4 =>
    refine ⟨_, .op (v := v) (l := l) (w := w) h1 h2 (hw h3) ?_, .next ?_⟩
    · rw [← h.args ρ ha, ← h.world]; exact h4
    · have hcell : ∀ q, q ≠ .alloca r → after ρ op l s.cells q = after ρ op l s'.cells q :=
        fun q hq => after_congr _ _ _ _ _ _ (h.cells q hq)
      unfold State.define
      cases hr : op.result with
      | none => exact ⟨h.vals, rfl, hcell, h.live, h.marks⟩
      | some x =>
        simp only
        cases hw : ownRoot op with
        | none => exact ⟨by simp only [h.vals], rfl, hcell, h.live, h.marks⟩
        | some q =>
          refine ⟨h.vals, rfl, ?_, ?_, h.marks⟩
          · intro q' hq'
            simp only [upd]
            split
            · rfl
            · exact hcell q' hq'
          · intro y hy
            cases q with
            | alloca z => simp only [upd]; split; rfl; exact h.live y hy
            | param _ => exact h.live y hy
            | dict _ => exact h.live y hy

/-! ## The plan of a move -/

/-- What is known about a call that may be moved: the blocks of the loop, the block before it with the index of
insertion, the header, the register of the result, the site and operation of the call, its inputs, and the
storage if it moves. -/
structure Plan (F : Fn) (ρ : Reg → Option Root) where
  L : Nat → Prop
  P : Nat
  k : Nat
  header : Nat
  r : Reg
  cb : Nat
  ci : Nat
  op : Op
  moved : Prop
  ab : Nat
  ai : Nat
  aop : Op
  Lentry : ¬ L 0
  LP : ¬ L P
  pre : Block
  hpre : F[P]? = some pre
  hgoto : pre.term = .goto header
  hk : k ≤ pre.ops.length
  hheader : L header
  enter : ∀ b c, c ∈ F.successors b → L c → L b ∨ (b = P ∧ c = header)
  cblk : Block
  hcblk : F[cb]? = some cblk
  Lcall : L cb
  hop : cblk.ops[ci]? = some op
  info : CallInfo
  kind : op.kind = .call info
  opnds : 1 ≤ op.operands.length
  hlast : op.operands[op.operands.length - 1]? = some (.reg r)
  hroot : ρ r = some (.alloca r)
  hchanges : ∀ i, i < op.operands.length → (changes op i = true ↔ i + 1 = op.operands.length)
  writes : ∀ b i o p q, L b → At F b i o → o.operands[p]? = some q → changes o p = true →
    place ρ q = some (.alloca r) → b = cb ∧ i = ci
  outside : ∀ b i o q, ¬ L b → At F b i o → q ∈ o.operands → place ρ q ≠ some (.alloca r)
  inputs : ∀ i o, op.operands[i]? = some o → i + 1 < op.operands.length → place ρ o ≠ some (.alloca r) ∧
    (∀ q, place ρ o = some q → ∀ b j o' p u, (L b ∨ (b = P ∧ k ≤ j)) → At F b j o' → o'.operands[p]? = some u →
      changes o' p = true → place ρ u ≠ some q) ∧
    (∀ q, place ρ o = some q → ∀ b j o', (L b ∨ (b = P ∧ k ≤ j)) → At F b j o' → ownRoot o' ≠ some q) ∧
    (∀ x, o = .reg x → ∀ b j o', (L b ∨ (b = P ∧ k ≤ j)) → At F b j o' → o'.result ≠ some x)
  alloca : ∀ b j o, At F b j o → ownRoot o = some (.alloca r) → ∃ ty, o.kind = .alloca ty
  result : ∀ b j o, At F b j o → o.result = some r → ownRoot o = some (.alloca r)
  hmoved : moved → L ab ∧ (∃ blk, F[ab]? = some blk ∧ blk.ops[ai]? = some aop) ∧ ownRoot aop = some (.alloca r) ∧
    aop.operands = []
  only : ∀ b j o, (L b ∨ (b = P ∧ k ≤ j)) → At F b j o → ownRoot o = some (.alloca r) → moved ∧ b = ab ∧ j = ai
  movedOnly : moved → ∀ b j o, At F b j o → ownRoot o = some (.alloca r) → b = ab ∧ j = ai
  restores : ∀ b j o m, (L b ∨ (b = P ∧ k ≤ j)) → At F b j o → o.kind = .stackRestore →
    o.operands.head? = some (.reg m) →
    ∀ d i o', At F d i o' → o'.result = some m → L d ∨ (d = P ∧ k ≤ i)

/-- What is assumed about the call and the making of its storage. -/
structure Calm (sem : Sem V W) {F : Fn} {ρ : Reg → Option Root} (p : Plan F ρ) : Prop where
  call : ∀ args : List (Option V × Option V), args.length = p.op.operands.length →
    (∀ i o q, p.op.operands[i]? = some o → i + 1 < p.op.operands.length → place ρ o = some q →
      ∃ a, args[i]? = some a ∧ a.2 ≠ none) →
    ∃ v, ∀ w, ∃ res l, sem.op p.op args w = .ok res l w ∧ (l[p.op.operands.length - 1]?).getD none = some v
  alloca : p.moved → ∀ w, ∃ res l, sem.op p.aop [] w = .ok res l w

end Ferlium.Licm
