import Verif.Proofs.Dce

/-!
# Helper lemmas on the removal of unused computations: runs
-/

namespace Ferlium.Dce

variable {V W : Type}

/-- The register `r` holds storage made by the function. -/
def Local (F : Fn) (r : Reg) : Prop :=
  ∃ s op, F.op? s = some op ∧ op.kind = .alloca ∧ op.result = some r

/-- Two runs end in the same way as far as the caller can tell: same world, same contents of all
cells other than those that the function made for itself. -/
inductive Same (F : Fn) : Option (Outcome V W) → Option (Outcome V W) → Prop where
  | running : Same F none none
  | stopped (w : W) : Same F (some (.stopped w)) (some (.stopped w))
  | lost : Same F (some .lost) (some .lost)
  | returned (s t : State V W) (hw : s.world = t.world)
      (hc : ∀ a, ¬ Local F a.1 → s.cells a = t.cells a) :
      Same F (some (.returned s)) (some (.returned t))

/-- The state on entry: registers hold no places in storage that the function makes itself, and
the registers of its own storage hold no places. -/
structure Entry (F : Fn) (s : State V W) : Prop where
  other : ∀ x c p, s.regs x = .place c p → ¬ Local F c.1
  own : ∀ x c p, Local F x → s.regs x ≠ .place c p

/-- An operation with `n` operands returns, leaves the world alone, and writes to no other operands
than those at the positions in `P`. -/
def Quiet (sem : Sem V W) (k : Kind) (n : Nat) (P : Nat → Prop) : Prop :=
  ∀ args w, args.length = n → ∃ e, sem.op k args w = .ok e ∧ e.world = w ∧
    ∀ (i : Nat) (v : V), e.writes[i]? = some (some v) → P i

/-- The operations in `dead` can go: `R` are the registers that nobody needs any more, `A` those of
them that hold storage. -/
structure Harmless (sem : Sem V W) (F : Fn) (dead : Site → Bool) (R A : Reg → Prop) : Prop where
  sub : ∀ r, A r → R r
  «local» : ∀ r, A r → Local F r
  keptUse : ∀ s op, F.op? s = some op → dead s = false → ∀ x, .reg x ∈ op.operands → ¬ R x
  termUse : ∀ (b : Nat) (blk : Block), F.blocks[b]? = some blk →
    (∀ x, .reg x ∈ blk.term.operands → ¬ R x) ∧ ∀ r, blk.term.result = some r → ¬ R r
  keptDef : ∀ s op r, F.op? s = some op → dead s = false → op.result = some r → R r →
    op.kind = .alloca ∧ A r
  aDef : ∀ s op r, F.op? s = some op → op.result = some r → A r → op.kind = .alloca
  deadDef : ∀ s op r, F.op? s = some op → dead s = true → op.result = some r →
    R r ∧ (op.kind = .alloca → A r)
  quiet : ∀ s op, F.op? s = some op → dead s = true → op.kind ≠ .alloca →
    Quiet sem op.kind op.operands.length (fun i => ∃ x, op.operands[i]? = some (.reg x) ∧ A x)

/-- The state `s` of the original and the state `t` of the rewritten function agree on all that is
needed. -/
structure Rel (R A : Reg → Prop) (s t : State V W) : Prop where
  world : s.world = t.world
  regs : ∀ x, ¬ R x → s.regs x = t.regs x
  made : ∀ x, ¬ A x → s.made x = t.made x
  cells : ∀ a, ¬ A a.1 → s.cells a = t.cells a
  safe : ∀ x c p, ¬ R x → s.regs x = .place c p → ¬ A c.1
  own : ∀ x c p, A x → s.regs x = .place c p → c.1 = x

theorem Rel.eval_eq {R A : Reg → Prop} {s t : State V W} (h : Rel R A s t) (sem : Sem V W)
    {o : Operand} (ho : ∀ x, o = .reg x → ¬ R x) : s.eval sem o = t.eval sem o := by
  cases o <;> simp only [State.eval]
  exact h.regs _ (ho _ rfl)

theorem Rel.eval_safe {R A : Reg → Prop} {s t : State V W} (h : Rel R A s t) (sem : Sem V W)
    {o : Operand} (ho : ∀ x, o = .reg x → ¬ R x) {c p} (he : s.eval sem o = .place c p) :
    ¬ A c.1 := by
  cases o <;> simp only [State.eval] at he <;> try cases he
  exact h.safe _ _ _ (ho _ rfl) he

theorem Rel.look_eq {R A : Reg → Prop} {s t : State V W} (h : Rel R A s t) (sem : Sem V W)
    {o : Operand} (ho : ∀ x, o = .reg x → ¬ R x) : s.look sem o = t.look sem o := by
  simp only [State.look, ← h.eval_eq sem ho]
  cases he : s.eval sem o with
  | value v => rfl
  | place c p => simp only [h.cells c (h.eval_safe sem ho he)]

theorem writeCells_same {A : Reg → Prop} (vals : List (RVal V)) (ws : List (Option V))
    (f g : Reg × Nat → V) (h : ∀ a, ¬ A a.1 → f a = g a) :
    ∀ a, ¬ A a.1 → writeCells vals ws f a = writeCells vals ws g a := by
  induction vals generalizing ws f g with
  | nil => intro a ha; simpa [writeCells] using h a ha
  | cons v vals ih =>
    cases ws with
    | nil => intro a ha; simpa [writeCells] using h a ha
    | cons w ws =>
      cases v with
      | value v => simp only [writeCells]; exact ih ws f g h
      | place c p =>
        cases w with
        | none => simp only [writeCells]; exact ih ws f g h
        | some v =>
          simp only [writeCells]
          apply ih
          intro a ha
          split
          · rfl
          · exact h a ha

theorem writeCells_quiet {A : Reg → Prop} (vals : List (RVal V)) (ws : List (Option V))
    (f : Reg × Nat → V)
    (h : ∀ (i : Nat) v c p, ws[i]? = some (some v) → vals[i]? = some (.place c p) → A c.1) :
    ∀ a, ¬ A a.1 → writeCells vals ws f a = f a := by
  induction vals generalizing ws f with
  | nil => intro a ha; simp [writeCells]
  | cons v vals ih =>
    cases ws with
    | nil => intro a ha; simp [writeCells]
    | cons w ws =>
      have h' : ∀ (i : Nat) v c p, ws[i]? = some (some v) → vals[i]? = some (.place c p) →
          A c.1 := fun i v c p h1 h2 => h (i + 1) v c p (by simpa using h1) (by simpa using h2)
      cases v with
      | value v => simp only [writeCells]; exact ih ws f h'
      | place c p =>
        cases w with
        | none => simp only [writeCells]; exact ih ws f h'
        | some v =>
          simp only [writeCells]
          intro a ha
          rw [ih ws _ h' a ha]
          have := h 0 v c p rfl rfl
          have : a ≠ c := fun e => ha (e ▸ this)
          simp [this]

theorem Rel.out_eq {R A : Reg → Prop} {s t : State V W} (h : Rel R A s t) (sem : Sem V W)
    {l : List Operand} (hl : ∀ x, .reg x ∈ l → ¬ R x) :
    l.map (s.eval sem) = l.map (t.eval sem) ∧ l.map (s.look sem) = l.map (t.look sem) := by
  constructor
  · apply List.map_congr_left
    intro o ho
    exact h.eval_eq sem (fun x e => hl x (e ▸ ho))
  · apply List.map_congr_left
    intro o ho
    exact h.look_eq sem (fun x e => hl x (e ▸ ho))

theorem Out.val_place {junk : V} {vals : List (RVal V)} {o : Out V} {c p}
    (h : o.val junk vals = .place c p) : ∃ (i : Nat) (q : V), vals[i]? = some (.place c q) := by
  cases o with
  | value v => cases h
  | place i q =>
    simp only [Out.val] at h
    split at h
    · rename_i c' q' he
      cases h
      exact ⟨i, q', he⟩
    · cases h

/-- An effect with the same operands on both sides. -/
theorem Rel.apply_eq {R A : Reg → Prop} {s t : State V W} (h : Rel R A s t) (sem : Sem V W)
    (hsub : ∀ r, A r → R r) {l : List Operand} (hl : ∀ x, .reg x ∈ l → ¬ R x) {res : Option Reg}
    (hr : ∀ r, res = some r → ¬ R r) (e : Effect V W) :
    Rel R A (s.apply sem l res e) (t.apply sem l res e) := by
  have hv := (h.out_eq sem hl).1
  refine ⟨rfl, ?_, h.made, ?_, ?_, ?_⟩
  · intro x hx
    simp only [State.apply, hv]
    cases res with
    | none => exact h.regs x hx
    | some r =>
      simp only [set]
      split
      · rfl
      · exact h.regs x hx
  · intro a ha
    simp only [State.apply, hv]
    exact writeCells_same _ _ _ _ h.cells a ha
  · intro x c p hx hp
    simp only [State.apply] at hp
    cases res with
    | none => exact h.safe x c p hx hp
    | some r =>
      simp only [set] at hp
      split at hp
      · obtain ⟨i, q, hi⟩ := Out.val_place hp
        simp only [List.getElem?_map, Option.map_eq_some_iff] at hi
        obtain ⟨o, ho, he⟩ := hi
        exact h.eval_safe sem (fun x e => hl x (e ▸ List.mem_of_getElem? ho)) he
      · exact h.safe x c p hx hp
  · intro x c p hx hp
    simp only [State.apply] at hp
    cases res with
    | none => exact h.own x c p hx hp
    | some r =>
      simp only [set] at hp
      split at hp
      · rename_i e
        exact absurd (hsub x hx) (e ▸ hr r rfl)
      · exact h.own x c p hx hp

/-- Both sides run an operation that stays. -/
theorem Harmless.kept {sem : Sem V W} {F : Fn} {dead : Site → Bool} {R A : Reg → Prop}
    (H : Harmless sem F dead R A) {s t : State V W} (h : Rel R A s t) {site : Site} {op : Op}
    (ho : F.op? site = some op) (hd : dead site = false) :
    (∃ s' t', execOp sem s op = .inl s' ∧ execOp sem t op = .inl t' ∧ Rel R A s' t') ∨
    ∃ w, execOp sem s op = .inr w ∧ execOp sem t op = .inr w := by
  by_cases hk : op.kind = .alloca
  · left
    simp only [execOp, if_pos hk]
    cases hres : op.result with
    | none => exact ⟨s, t, rfl, rfl, h⟩
    | some r =>
      refine ⟨_, _, rfl, rfl, ⟨h.world, ?_, ?_, ?_, ?_, ?_⟩⟩
      · intro x hx
        simp only [set]
        split
        · rename_i e
          rw [← e, h.made x (fun ha => hx (H.sub x ha))]
        · exact h.regs x hx
      · intro x hx
        simp only [set]
        split
        · rename_i e
          rw [← e, h.made x hx]
        · exact h.made x hx
      · intro a ha
        simp only
        by_cases e : a.1 = r
        · have : s.made r = t.made r := h.made r (e ▸ ha)
          rw [this]
          split
          · rfl
          · exact h.cells a ha
        · have h1 : a ≠ (r, s.made r) := fun e' => e (by rw [e'])
          have h2 : a ≠ (r, t.made r) := fun e' => e (by rw [e'])
          rw [if_neg h1, if_neg h2]
          exact h.cells a ha
      · intro x c p hx hp
        simp only [set] at hp
        split at hp
        · rename_i e
          cases hp
          exact fun ha => hx (e ▸ H.sub r ha)
        · exact h.safe x c p hx hp
      · intro x c p hx hp
        simp only [set] at hp
        split at hp
        · rename_i e
          cases hp
          exact e.symm
        · exact h.own x c p hx hp
  · have hu := H.keptUse site op ho hd
    have hl := (h.out_eq sem hu).2
    simp only [execOp, if_neg hk, ← hl, ← h.world]
    cases hact : sem.op op.kind (op.operands.map (s.look sem)) s.world with
    | stop w => exact .inr ⟨w, rfl, rfl⟩
    | ok e =>
      refine .inl ⟨_, _, rfl, rfl, h.apply_eq sem H.sub hu ?_ e⟩
      intro r hr hR
      exact hk (H.keptDef site op r ho hd hr hR).1

/-- Only the original runs an operation that went. -/
theorem Harmless.gone {sem : Sem V W} {F : Fn} {dead : Site → Bool} {R A : Reg → Prop}
    (H : Harmless sem F dead R A) {s t : State V W} (h : Rel R A s t) {site : Site} {op : Op}
    (ho : F.op? site = some op) (hd : dead site = true) :
    ∃ s', execOp sem s op = .inl s' ∧ Rel R A s' t := by
  by_cases hk : op.kind = .alloca
  · simp only [execOp, if_pos hk]
    cases hres : op.result with
    | none => exact ⟨s, rfl, h⟩
    | some r =>
      obtain ⟨hR, hA⟩ := H.deadDef site op r ho hd hres
      have hA := hA hk
      refine ⟨_, rfl, ⟨h.world, ?_, ?_, ?_, ?_, ?_⟩⟩
      · intro x hx
        have : x ≠ r := fun e => hx (e ▸ hR)
        simp only [set, if_neg this]
        exact h.regs x hx
      · intro x hx
        have : x ≠ r := fun e => hx (e ▸ hA)
        simp only [set, if_neg this]
        exact h.made x hx
      · intro a ha
        have : a ≠ (r, s.made r) := fun e => ha (by rw [e]; exact hA)
        simp only [if_neg this]
        exact h.cells a ha
      · intro x c p hx hp
        have : x ≠ r := fun e => hx (e ▸ hR)
        simp only [set, if_neg this] at hp
        exact h.safe x c p hx hp
      · intro x c p hx hp
        simp only [set] at hp
        split at hp
        · rename_i e
          cases hp
          exact e.symm
        · exact h.own x c p hx hp
  · obtain ⟨e, he, hw, hwr⟩ := H.quiet site op ho hd hk (op.operands.map (s.look sem)) s.world
      (by simp)
    simp only [execOp, if_neg hk, he]
    have hr : ∀ r, op.result = some r → R r ∧ ¬ A r := by
      intro r hr
      exact ⟨(H.deadDef site op r ho hd hr).1, fun ha => hk (H.aDef site op r ho hr ha)⟩
    refine ⟨_, rfl, ⟨hw.trans h.world, ?_, h.made, ?_, ?_, ?_⟩⟩
    · intro x hx
      simp only [State.apply]
      cases hres : op.result with
      | none => exact h.regs x hx
      | some r =>
        have : x ≠ r := fun e => hx (e ▸ (hr r hres).1)
        simp only [set, if_neg this]
        exact h.regs x hx
    · intro a ha
      simp only [State.apply]
      rw [writeCells_quiet (A := A) _ _ _ _ a ha]
      · exact h.cells a ha
      · intro i v c p hv hc
        obtain ⟨x, hx, hax⟩ := hwr i v hv
        simp only [List.getElem?_map, hx, Option.map_some, State.eval, Option.some.injEq] at hc
        rw [h.own x c p hax hc]
        exact hax
    · intro x c p hx hp
      simp only [State.apply] at hp
      cases hres : op.result with
      | none => rw [hres] at hp; exact h.safe x c p hx hp
      | some r =>
        rw [hres] at hp
        have : x ≠ r := fun e => hx (e ▸ (hr r hres).1)
        simp only [set, if_neg this] at hp
        exact h.safe x c p hx hp
    · intro x c p hx hp
      simp only [State.apply] at hp
      cases hres : op.result with
      | none => rw [hres] at hp; exact h.own x c p hx hp
      | some r =>
        rw [hres] at hp
        have : x ≠ r := fun e => (hr r hres).2 (e ▸ hx)
        simp only [set, if_neg this] at hp
        exact h.own x c p hx hp

theorem Harmless.ops {sem : Sem V W} {F : Fn} {dead : Site → Bool} {R A : Reg → Prop}
    (H : Harmless sem F dead R A) (b : Nat) (l : List Op) (i : Nat) {s t : State V W}
    (h : Rel R A s t) (hl : ∀ (j : Nat) op, l[j]? = some op → F.op? (b, i + j) = some op) :
    (∃ s' t', execOps sem s l = .inl s' ∧ execOps sem t (keep dead b i l) = .inl t' ∧
      Rel R A s' t') ∨
    ∃ w, execOps sem s l = .inr w ∧ execOps sem t (keep dead b i l) = .inr w := by
  induction l generalizing i s t with
  | nil => exact .inl ⟨s, t, rfl, rfl, h⟩
  | cons op l ih =>
    have h0 : F.op? (b, i) = some op := hl 0 op rfl
    have hl' : ∀ (j : Nat) op, l[j]? = some op → F.op? (b, i + 1 + j) = some op := by
      intro j o hj
      have := hl (j + 1) o (by simpa using hj)
      rwa [show i + (j + 1) = i + 1 + j by omega] at this
    cases hd : dead (b, i) with
    | true =>
      obtain ⟨s', h1, h2⟩ := H.gone h h0 hd
      simp only [execOps, h1, keep, hd, if_true]
      exact ih (i + 1) h2 hl'
    | false =>
      simp only [keep, hd, Bool.false_eq_true, if_false]
      rcases H.kept h h0 hd with ⟨s', t', h1, h2, h3⟩ | ⟨w, h1, h2⟩
      · simp only [execOps, h1, h2]
        exact ih (i + 1) h3 hl'
      · simp only [execOps, h1, h2]
        exact .inr ⟨w, rfl, rfl⟩

theorem keepBlocks_get (dead : Site → Bool) (l : List Block) (b k : Nat) :
    (keepBlocks dead b l)[k]? =
      l[k]?.map (fun blk => { blk with ops := keep dead (b + k) 0 blk.ops }) := by
  induction l generalizing b k with
  | nil => simp [keepBlocks]
  | cons a l ih =>
    cases k with
    | zero => simp [keepBlocks]
    | succ k =>
      simp only [keepBlocks, List.getElem?_cons_succ, ih]
      rw [show b + 1 + k = b + (k + 1) by omega]

theorem Harmless.run_same {sem : Sem V W} {F : Fn} {dead : Site → Bool} {R A : Reg → Prop}
    (H : Harmless sem F dead R A) (n b : Nat) {s t : State V W} (h : Rel R A s t) :
    Same F (run sem F n b s) (run sem (F.remove dead) n b t) := by
  induction n generalizing b s t with
  | zero => exact .running
  | succ n ih =>
    simp only [run, Fn.remove, keepBlocks_get, Nat.zero_add]
    cases hb : F.blocks[b]? with
    | none => exact .lost
    | some blk =>
      simp only [Option.map_some]
      rcases H.ops b blk.ops 0 h (fun j op hj => by
        rw [Nat.zero_add]; exact op?_of hb hj) with ⟨s', t', h1, h2, h3⟩ | ⟨w, h1, h2⟩
      · simp only [h1, h2]
        obtain ⟨hu, hr⟩ := H.termUse b blk hb
        have hl := (h3.out_eq sem hu).2
        rw [← hl, ← h3.world]
        cases hact : sem.term blk.term.tag (blk.term.operands.map (s'.look sem)) s'.world with
        | stop w => exact .stopped w
        | ret e =>
          have h4 := h3.apply_eq sem H.sub hu hr e
          refine .returned _ _ h4.world (fun a ha => h4.cells a (fun h => ha (H.local _ h)))
        | goto b' e => exact ih b' (h3.apply_eq sem H.sub hu hr e)
      · simp only [h1, h2]
        exact .stopped w

/-- Removing operations that nobody needs changes nothing that the caller can see. -/
theorem Harmless.run {sem : Sem V W} {F : Fn} {dead : Site → Bool} {R A : Reg → Prop}
    (H : Harmless sem F dead R A) (n b : Nat) {s : State V W} (hs : Entry F s) :
    Same F (run sem F n b s) (run sem (F.remove dead) n b s) := by
  apply H.run_same
  refine ⟨rfl, fun _ _ => rfl, fun _ _ => rfl, fun _ _ => rfl, ?_, ?_⟩
  · intro x c p _ hp ha
    exact hs.other x c p hp (H.local _ ha)
  · intro x c p ha hp
    exact absurd hp (hs.own x c p (H.local _ ha))

end Ferlium.Dce
