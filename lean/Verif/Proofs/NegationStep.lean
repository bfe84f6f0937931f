import Verif.Proofs.NegationInv

/-! The edited body behaves like the original one. -/
namespace Ferlium.Negation

open Ferlium.Mir
open Ferlium.Peephole (boolValue boolValue_plain)
open Ferlium.Dominance Ferlium.Edit

variable {V σ : Type} {W : World V σ} {f g : Body} {dom : Dom} {s s1 : St V σ} {w : σ}

/-! ### What the pass plans -/

/-- How an operation may change. -/
def OpOk (f : Body) (d : Site) (op op' : Op) : Prop :=
  op' = op ∨ ∃ v l pt start src, op.kind = .compareEqual ∧ op.operands = [v, l] ∧ boolValue l = some pt ∧
    Reads f v d start ∧ Mat f start ∧ Chain f ⟨start, false⟩ src ∧
    op' = { op with operands := [.register src.value, .pattern (.bool (pt != src.negated))] }

/-- How a terminator may change. -/
def TermOk (f : Body) (t t' : Term) : Prop :=
  t' = t ∨ ∃ c src x y, t = .condBr (.register c) x y ∧ Chain f ⟨c, false⟩ src ∧
    t' = if src.negated then .condBr (.register src.value) y x else .condBr (.register src.value) x y

/-- How a body may change. -/
structure Edited (f g : Body) : Prop where
  len : g.length = f.length
  blocks : ∀ (b : Nat) (blk : Block), f[b]? = some blk → ∃ blk', g[b]? = some blk' ∧ blk'.ops.length = blk.ops.length ∧
    (∀ (i : Nat) (op : Op), blk.ops[i]? = some op → ∃ op', blk'.ops[i]? = some op' ∧ OpOk f ⟨b, i⟩ op op') ∧
    TermOk f blk.term blk'.term

theorem chain_mat {x y : Source} (h : Chain f x y) (hm : Mat f y.value) : Mat f x.value := by
  induction h with
  | refl => exact hm
  | step _ ha _ _ ih => exact ih (arrow_mat ha)

theorem resolve_spec (hd : DomOk f dom) (hs : SingleAssignment f) (hsc : Scoped f) (c : Nat) :
    ∃ o, resolve f dom c = some o ∧ ∀ r, o = some r → Chain f ⟨c, false⟩ r := by
  obtain ⟨o, h1, h2⟩ := walk_spec hd hs hsc ⟨c, false⟩ ⟨c, false⟩ none (fun _ => .refl) (by simp)
  unfold resolve
  rw [h1]
  refine ⟨_, rfl, ?_⟩
  intro r hr
  rw [Option.filter_eq_some_iff] at hr
  exact (h2 r hr.1).2

theorem resolveScrutinee_spec (hd : DomOk f dom) (hs : SingleAssignment f) (hsc : Scoped f) (v : Value) {site : Site}
    (hlt : site.block < f.length) :
    ∃ o, resolveScrutinee f dom v site = some o ∧ ∀ r, o = some r →
      ∃ start, Reads f v site start ∧ Mat f start ∧ Chain f ⟨start, false⟩ r := by
  unfold resolveScrutinee
  obtain ⟨o, h1, h2⟩ := read_spec hd hsc.reachable (v := v) hlt
  rw [h1]
  cases o with
  | none => exact ⟨none, rfl, by simp⟩
  | some start =>
    have hread := h2 start rfl
    obtain ⟨o, h3, h4⟩ := walk_spec hd hs hsc ⟨start, false⟩ ⟨start, false⟩ none (fun _ => .refl) (by simp)
    simp only [Option.bind_eq_bind, Option.bind_some]
    rw [h3]
    simp only [Option.bind_some]
    cases o with
    | some r =>
      obtain ⟨hm, hc⟩ := h4 r rfl
      refine ⟨_, rfl, ?_⟩
      intro r' hr'
      split at hr'
      · cases hr'
        exact ⟨start, hread, chain_mat hc hm, hc⟩
      · cases hr'
    | none =>
      simp only []
      split
      · rename_i hm
        refine ⟨_, rfl, ?_⟩
        intro r' hr'
        split at hr'
        · cases hr'
          exact ⟨start, hread, (isMaterialized_iff hs).1 hm, .refl⟩
        · cases hr'
      · exact ⟨none, rfl, by simp⟩

theorem planOp_spec (hd : DomOk f dom) (hs : SingleAssignment f) (hsc : Scoped f) (op : Op) {d : Site}
    (hlt : d.block < f.length) : ∃ o, planOp f dom (op, d) = some o ∧ OpOk f d op (o.getD op) := by
  unfold planOp
  simp only []
  split
  · rename_i v p hk ho
    cases hp : boolValue p with
    | none => exact ⟨none, rfl, Or.inl rfl⟩
    | some pt =>
      obtain ⟨o, h1, h2⟩ := resolveScrutinee_spec hd hs hsc v hlt
      simp only [h1]
      refine ⟨_, rfl, ?_⟩
      cases o with
      | none => exact Or.inl rfl
      | some src =>
        obtain ⟨start, h3, h4, h5⟩ := h2 src rfl
        exact Or.inr ⟨v, p, pt, start, src, hk, ho, hp, h3, h4, h5, rfl⟩
  · exact ⟨none, rfl, Or.inl rfl⟩

theorem planTerm_spec (hd : DomOk f dom) (hs : SingleAssignment f) (hsc : Scoped f) (t : Term) :
    ∃ o, planTerm f dom t = some o ∧ TermOk f t (o.getD t) := by
  unfold planTerm
  split
  · rename_i c x y
    obtain ⟨o, h1, h2⟩ := resolve_spec hd hs hsc c
    rw [h1]
    refine ⟨_, rfl, ?_⟩
    cases o with
    | none => exact Or.inl rfl
    | some src => exact Or.inr ⟨c, src, x, y, rfl, h2 src rfl, rfl⟩
  · exact ⟨none, rfl, Or.inl rfl⟩

theorem blockSites_get {b : Nat} {blk : Block} {i : Nat} {op : Op} (h : blk.ops[i]? = some op) :
    (blockSites (blk, b))[i]? = some (op, ⟨b, i⟩) := by
  unfold blockSites
  simp [h]

theorem planBlock_spec (hd : DomOk f dom) (hs : SingleAssignment f) (hsc : Scoped f) {b : Nat} {blk : Block}
    (hb : f[b]? = some blk) : ∃ plan, planBlock f dom (blk, b) = some plan ∧
      (editBlock blk plan).ops.length = blk.ops.length ∧
      (∀ (i : Nat) (op : Op), blk.ops[i]? = some op → ∃ op', (editBlock blk plan).ops[i]? = some op' ∧ OpOk f ⟨b, i⟩ op op') ∧
      TermOk f blk.term (editBlock blk plan).term := by
  have hlt : b < f.length := (List.getElem?_eq_some_iff.1 hb).1
  obtain ⟨ops, h1⟩ : ∃ ops, (blockSites (blk, b)).mapM (planOp f dom) = some ops := by
    apply mapM_total
    rintro ⟨op, d⟩ hm
    unfold blockSites at hm
    rw [List.mem_map] at hm
    obtain ⟨⟨op', j⟩, _, he⟩ := hm
    cases he
    obtain ⟨o, h, _⟩ := planOp_spec hd hs hsc op' (d := ⟨b, j⟩) hlt
    exact ⟨o, h⟩
  obtain ⟨t, h2, h3⟩ := planTerm_spec hd hs hsc blk.term
  have hlen : ops.length = blk.ops.length := by
    rw [mapM_length h1]; simp [blockSites]
  refine ⟨(ops, t), ?_, ?_, ?_, h3⟩
  · unfold planBlock
    rw [h1]
    simp only [Option.bind_eq_bind, Option.bind_some]
    rw [h2]
    rfl
  · simp [editBlock, hlen]
  · intro i op hi
    obtain ⟨o, h4, h5⟩ := mapM_get h1 i _ (blockSites_get hi)
    obtain ⟨o', h6, h7⟩ := planOp_spec hd hs hsc op (d := ⟨b, i⟩) hlt
    rw [h4] at h6
    cases h6
    exact ⟨_, by simp [editBlock, List.getElem?_zipWith, hi, h5], h7⟩

theorem domOk (hr : InRange f) (hne : f ≠ []) : ∃ dom, compute (succs f) 0 = some dom ∧ DomOk f dom := by
  have hlen : (graphOf f).length = f.length := by simp [graphOf]
  obtain ⟨dom, h1, h2⟩ := C26_dominance_exact (graphOf f) (wf_graphOf hr) 0 (by rw [hlen]; exact List.length_pos_iff.2 hne)
  refine ⟨dom, h1, ?_⟩
  intro d u hd hu
  obtain ⟨r, h3, h4⟩ := h2 d u (by rw [hlen]; exact hd) (by rw [hlen]; exact hu)
  exact ⟨r, h3, by rw [h4, reach_graphOf]; rfl⟩

theorem forwardNegations_spec (hv : Valid f) (hne : f ≠ []) (hsc : Scoped f) :
    ∃ r, forwardNegations f = some r ∧ ∀ g, r = some g → Edited f g := by
  unfold forwardNegations
  split
  · obtain ⟨dom, h1, hd⟩ := domOk hv.inRange hne
    rw [h1]
    simp only [Option.bind_eq_bind, Option.bind_some]
    obtain ⟨plans, h2⟩ : ∃ plans, f.zipIdx.mapM (planBlock f dom) = some plans := by
      apply mapM_total
      rintro ⟨blk, b⟩ hm
      obtain ⟨p, h, _⟩ := planBlock_spec hd hv.single hsc (BranchForward.mem_zipIdx.1 hm)
      exact ⟨p, h⟩
    have hlen : plans.length = f.length := by rw [mapM_length h2]; simp
    rw [h2]
    refine ⟨_, rfl, ?_⟩
    intro g hg
    split at hg
    · cases hg
      constructor
      · simp [hlen]
      · intro b blk hb
        obtain ⟨p, h3, h4⟩ := mapM_get h2 b (blk, b) (by simp [hb])
        obtain ⟨p', h5, h6, h7, h8⟩ := planBlock_spec hd hv.single hsc hb
        rw [h3] at h5
        cases h5
        exact ⟨_, by simp [List.getElem?_zipWith, hb, h4], h6, h7, h8⟩
    · cases hg
  · exact ⟨none, rfl, by simp⟩

/-! ### Simulation -/

theorem linked_compare {res : Option Nat} {x x' : V} {neg pt : Bool}
    (h : (neg = false ∧ x = x') ∨ ∃ b, x = W.bool b ∧ x' = W.bool (b != neg)) :
    compareWith W res x pt s = compareWith W res x' (pt != neg) s := by
  rcases h with ⟨rfl, rfl⟩ | ⟨b, rfl, rfl⟩
  · simp
  · unfold compareWith
    rw [W.compare_bool, W.compare_bool]
    have : (b == pt) = ((b != neg) == (pt != neg)) := by cases b <;> cases pt <;> cases neg <;> rfl
    rw [this]

theorem op_same (hs : SingleAssignment f) (hsc : Scoped f) {d : Site} {op op' : Op} (hop : opAt f d = some op)
    (h : OpOk f d op op') (hI : Inv W f d s) : execOp W op'.direct op' s = execOp W op.direct op s := by
  rcases h with rfl | ⟨v, l, pt, start, src, hk, ho, hl, hread, hm, hc, rfl⟩
  · rfl
  obtain ⟨blk, hblk, hmem⟩ := opAt_mem hop
  have hbef : ∀ d' o, opAt f d' = some o → o.result = some start → Before f d' d := fun d' o h1 h2 =>
    reads_before hsc hop (by rw [ho]; simp) hread h1 h2
  have hl' : l = .pattern (.bool pt) := by
    obtain ⟨v', l', ho'⟩ := hsc.patterns blk hblk op hmem hk
    rw [ho] at ho'
    simp only [List.cons.injEq, and_true] at ho'
    rw [ho'.2] at hl ⊢
    cases l' <;> simp [boolValue] at hl
    rw [hl]
  have key : ∀ x, s.env start = some (.value x false) →
      (argOf W true s v = some (.value x) ∨ argOf W true s v = some (.content (some x))) →
      execOp W (Op.direct { op with operands := [.register src.value, .pattern (.bool (pt != src.negated))] })
        { op with operands := [.register src.value, .pattern (.bool (pt != src.negated))] } s =
      execOp W op.direct op s := by
    intro x hx hv
    rw [compare_exec hk ho hl hv]
    obtain ⟨h1, _⟩ := chain_linked hs hsc (opAt_lt hop) hI hc hbef
    have hx' : ∃ x', s.env src.value = some (.value x' false) ∧
        ((src.negated = false ∧ x = x') ∨ ∃ b, x = W.bool b ∧ x' = W.bool (b != src.negated)) := by
      rcases h1 with rfl | ⟨u, u', k1, k2, k3⟩
      · exact ⟨x, hx, Or.inl ⟨rfl, rfl⟩⟩
      · rw [hx] at k1
        cases k1
        exact ⟨u', k2, k3⟩
    obtain ⟨x', h2, h3⟩ := hx'
    rw [linked_compare h3]
    exact compare_exec (op := { op with operands := [.register src.value, .pattern (.bool (pt != src.negated))] })
      (v := .register src.value) (l := .pattern (.bool (pt != src.negated))) hk rfl rfl (Or.inl (by simp [argOf, h2]))
  rcases hread with ⟨rfl, _⟩ | ⟨c, S, rfl, hcell, hS⟩
  · obtain ⟨h1, _⟩ := chain_linked hs hsc (opAt_lt hop) hI hc hbef
    rcases h1 with rfl | ⟨u, u', k1, k2, k3⟩
    · have : { op with operands := [.register start, .pattern (.bool (pt != false))] } = op := by
        cases op
        simp only [] at ho
        rw [ho, hl']
        simp
      simp only [this]
    · exact key u k1 (Or.inl (by simp [argOf, k1]))
  · obtain ⟨x, h1, h2⟩ := hI.held c start S hcell hm hS
    exact key x h2 (Or.inr (by simp [argOf, h1]))

/-- The two executions are at the same point in the same state. -/
inductive Rel (W : World V σ) (f g : Body) : Config V σ → Config V σ → Prop
  | done x : Rel W f g (.done x) (.done x)
  | here {b i : Nat} {blk blk' : Block} {s : St V σ} : f[b]? = some blk → g[b]? = some blk' → i ≤ blk.ops.length →
      Inv W f ⟨b, i⟩ s → Rel W f g (.at (blk.ops.drop i) blk.term s) (.at (blk'.ops.drop i) blk'.term s)

theorem rel_enter (hE : Edited f g) {b : Nat} (h : Inv W f ⟨b, 0⟩ s) : Rel W f g (enter f b s) (enter g b s) := by
  unfold enter
  cases hb : f[b]? with
  | none =>
    have : g[b]? = none := by
      rw [List.getElem?_eq_none_iff] at hb ⊢
      rw [hE.len]; exact hb
    rw [this]
    exact .done _
  | some blk =>
    obtain ⟨blk', hg, _⟩ := hE.blocks b blk hb
    rw [hg]
    exact .here (i := 0) hb hg (Nat.zero_le _) h

theorem rel_term (hv : Valid f) (hsc : Scoped f) (hE : Edited f g) {b : Nat} {blk : Block} {t' : Term}
    (hb : f[b]? = some blk) (ht : TermOk f blk.term t') (hI : Inv W f ⟨b, blk.ops.length⟩ s) :
    Rel W f g (stepTerm W f blk.term s) (stepTerm W g t' s) := by
  have hmem := List.mem_of_getElem? hb
  have hlt : b < f.length := (List.getElem?_eq_some_iff.1 hb).1
  have hgo : ∀ b' ∈ blk.term.successors, Rel W f g (enter f b' s) (enter g b' s) := fun b' hb' =>
    rel_enter hE (inv_jump hb hb' hI (fun _ _ h => h) fun _ _ => rfl)
  rcases ht with rfl | ⟨c, src, x, y, hterm, hc, rfl⟩
  · cases hterm : blk.term with
    | goto b' => exact hgo b' (by rw [hterm]; simp [Term.successors])
    | condBr c x y =>
      simp only [stepTerm]
      split
      · exact hgo x (by rw [hterm]; simp [Term.successors])
      · exact hgo y (by rw [hterm]; simp [Term.successors])
      · exact .done _
    | invoke op n e =>
      have hres := hv.single.2 blk hmem op n e hterm
      have hnext : ∀ b' ∈ blk.term.successors, ∀ s1, (execOp W (fun _ => false) op s).Cont s1 →
          Rel W f g (enter f b' s1) (enter g b' s1) := by
        intro b' hb' s1 h1
        refine rel_enter hE (inv_jump hb hb' hI ?_ ?_)
        · intro q x hx
          exact execOp_value hx (by rw [hres]; simp) h1
        · intro c hc
          rw [hterm] at hc
          exact execOp_frame' hc (by rw [hres]; simp) h1
      simp only [stepTerm]
      split
      · rename_i s1 h1
        exact hnext n (by rw [hterm]; simp [Term.successors]) s1 (by rw [h1]; rfl)
      · rename_i s1 h1
        exact hnext e (by rw [hterm]; simp [Term.successors]) s1 (by rw [h1]; rfl)
      · exact .done _
      · exact .done _
    | yield v r =>
      simp only [stepTerm]
      split
      · split
        · rename_i w' _
          refine rel_enter hE (inv_jump hb (by rw [hterm]; simp [Term.successors]) hI ?_ ?_)
          · intro q x hx
            exact exposeOne_value (W := W) (v := v) hx
          · intro c hc
            rw [hterm] at hc
            simp only [Term.operands, List.mem_singleton] at hc
            exact exposeOne_frame (W := W) (s := s) (Ne.symm hc)
        · exact .done _
      · exact .done _
    | ret => exact .done _
    | propagateError => exact .done _
    | cleanupFailure => exact .done _
  · have hbef : ∀ d o, opAt f d = some o → o.result = some c → Before f d ⟨b, blk.ops.length⟩ :=
      fun d o h1 h2 => hsc.terms b blk c hb (by rw [hterm]; simp [Term.operands]) d o h1 h2
    have hx : Rel W f g (enter f x s) (enter g x s) := hgo x (by rw [hterm]; simp [Term.successors])
    have hy : Rel W f g (enter f y s) (enter g y s) := hgo y (by rw [hterm]; simp [Term.successors])
    rw [hterm]
    obtain ⟨h1, _⟩ := chain_linked hv.single hsc (p := ⟨b, blk.ops.length⟩) hlt hI hc hbef
    have hsame : Rel W f g (stepTerm W f (.condBr (.register c) x y) s) (stepTerm W g (.condBr (.register c) x y) s) := by
      simp only [stepTerm]
      split
      · exact hx
      · exact hy
      · exact .done _
    rcases h1 with rfl | ⟨u, u', k1, k2, k3⟩
    · exact hsame
    · rcases k3 with ⟨hn, rfl⟩ | ⟨b0, rfl, rfl⟩
      · rw [hn]
        simp only [stepTerm, Bool.false_eq_true, if_false, valueOf, argOf, k1, k2] at hsame ⊢
        exact hsame
      · have e1 : (valueOf W s (.register c)).bind W.asBool = some b0 := by simp [valueOf, argOf, k1, W.asBool_bool]
        have e2 : (valueOf W s (.register src.value)).bind W.asBool = some (b0 != src.negated) := by
          simp [valueOf, argOf, k2, W.asBool_bool]
        cases hn : src.negated <;> rw [hn] at e2 <;> cases b0 <;>
          simp only [stepTerm, if_true, Bool.false_eq_true, if_false, e1, e2] <;> simp [hx, hy]

theorem rel_step (hv : Valid f) (hsc : Scoped f) (hn : NoLoadedPlaces f) (hE : Edited f g) {c c' : Config V σ}
    (h : Rel W f g c c') (hsh : ConfigAll (Shape f) f c)
    (hB : ∀ op ops t s, c = .at (op :: ops) t s → BoolsAt W f op s) : Rel W f g (step W f c) (step W g c') := by
  cases h with
  | done x => exact .done x
  | @here b i blk blk' s hb hg hi hI =>
    obtain ⟨blk1, h1, hlen, hops, hterm⟩ := hE.blocks b blk hb
    rw [hg] at h1
    cases h1
    rcases Nat.lt_or_eq_of_le hi with hi | rfl
    · have hget : blk.ops[i]? = some blk.ops[i] := List.getElem?_eq_getElem hi
      obtain ⟨op', h2, hok⟩ := hops i _ hget
      have hop : opAt f ⟨b, i⟩ = some blk.ops[i] := opAt_some.2 ⟨blk, hb, hget⟩
      have hi' : i < blk'.ops.length := by omega
      have he : blk'.ops[i] = op' := by
        rw [List.getElem?_eq_getElem hi'] at h2
        exact Option.some.inj h2
      rw [List.drop_eq_getElem_cons hi, List.drop_eq_getElem_cons hi', he]
      rw [List.drop_eq_getElem_cons hi] at hB hsh
      simp only [step]
      rw [op_same hv.single hsc hop hok hI]
      cases hx : execOp W blk.ops[i].direct blk.ops[i] s with
      | ok s1 => exact .here hb hg hi (inv_op hv.single hsc hv.stores hn hop hI hsh.2 (hB _ _ _ _ rfl) hx)
      | error s1 => exact .done _
      | halt w => exact .done _
      | stuck => exact .done _
    · have hd : blk'.ops.drop blk.ops.length = [] := by rw [← hlen]; simp
      rw [hd, List.drop_length]
      exact rel_term hv hsc hE hb hterm hI

theorem edited_same (hv : Valid f) (hsc : Scoped f) (hn : NoLoadedPlaces f) (hE : Edited f g) (hB : ComparesBools W f w) :
    SameBehaviour W f g w := by
  let R : Config V σ → Config V σ → Prop := fun c c' =>
    Rel W f g c c' ∧ ConfigAll (Shape f) f c ∧ ∃ n, c = run W f n (start f w)
  have hstep : ∀ c c', R c c' → R (step W f c) (step W g c') := by
    rintro c c' ⟨h1, h2, n, h3⟩
    refine ⟨rel_step hv hsc hn hE h1 h2 ?_, configAll_step (shape_keeps hv hsc) h2, n + 1, by rw [run_succ', ← h3]⟩
    rintro op ops t s rfl r l hk ho hl
    exact hB n op ops t s r l h3.symm hk ho hl
  refine sim_both R ?_ ?_ ?_ (fun c c' h => ⟨1, hstep c c' h⟩) (fun c c' h => ⟨1, hstep c c' h⟩) ?_
  · rintro c c' ⟨h, _⟩
    cases h <;> rfl
  · rintro x c' ⟨h, _⟩
    cases h; rfl
  · rintro x c ⟨h, _⟩
    cases h; rfl
  · refine ⟨rel_enter hE ?_, configAll_start (fun r => ⟨fun _ => Or.inl rfl, fun _ => Or.inl rfl⟩) w, 0, rfl⟩
    exact ⟨fun _ _ _ _ _ h => absurd h not_before_start, fun _ _ _ _ _ _ _ _ _ h => absurd h not_before_start⟩

end Ferlium.Negation
