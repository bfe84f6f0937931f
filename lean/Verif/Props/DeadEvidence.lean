import Verif.Proofs.DeadEvidenceLink

/-!
# C94: dropping the hidden arguments of specializations
-/

namespace Ferlium.DeadEvidence

open Inline

variable {P V C W E : Type}

/-- A specialization of the module that has a dictionary parameter. -/
def Narrowed (env : Env) (M : Module) (f : Nat) : Prop :=
  ∃ i b, env.loc f = some i ∧ M.functions.length ≤ i ∧ M.specs[i - M.functions.length]? = some b ∧
    true ∈ b.dict

/-- The number of dictionary parameters of a specialization, zero for any other function. -/
def hidden (env : Env) (M : Module) (f : Nat) : Nat :=
  match env.loc f with
  | none => 0
  | some i => if i < M.functions.length then 0 else
    match M.specs[i - M.functions.length]? with
    | none => 0
    | some b => b.dict.count true

/-- What the rest of the optimiser ensures: dictionaries come first in a signature, specializations
are named only as callees of calls, and other modules do not name them. -/
structure Formed (env : Env) (M : Module) (ext : Nat → Option Fn) : Prop where
  order : ∀ b ∈ M.specs, ∃ n k, b.dict = List.replicate n true ++ List.replicate k false
  arity : ∀ b ∈ M.specs, b.fn.params = b.dict.length
  called : ∀ b, some b ∈ M.functions ∨ b ∈ M.specs → CalleeOnly (Narrowed env M) b.fn
  outside : ∀ f F, ext f = some F → Unnamed (Narrowed env M) F

theorem drop_iff {env : Env} {M : Module} (f : Nat) :
    (droppedAt env M.functions.length (M.specs.map dictCount) f).isSome = true ↔ Narrowed env M f := by
  unfold droppedAt Narrowed
  cases hl : env.loc f with
  | none => simp
  | some i =>
    simp only [Option.bind_some, Option.some.injEq, exists_and_left]
    by_cases hi : i < M.functions.length
    · simp only [hi, if_true, Option.isSome_none, Bool.false_eq_true, false_iff]
      rintro ⟨j, rfl, hj, -⟩
      omega
    · rw [if_neg hi]
      rw [List.getElem?_map]
      cases hs : M.specs[i - M.functions.length]? with
      | none =>
        simp only [Option.map_none, Option.bind_none, Option.isSome_none, Bool.false_eq_true,
          false_iff]
        rintro ⟨j, rfl, hj, b, hb, -⟩
        rw [hs] at hb
        cases hb
      | some b =>
        simp only [Option.map_some, Option.bind_some]
        have hc : dictCount b > 0 ↔ true ∈ b.dict := by
          unfold dictCount
          exact List.count_pos_iff
        constructor
        · intro h
          refine ⟨i, rfl, by omega, b, hs, hc.1 ?_⟩
          by_contra h0
          rw [if_neg h0] at h
          cases h
        · rintro ⟨j, rfl, -, b', hb, ht⟩
          rw [hs] at hb
          cases hb
          rw [if_pos (hc.2 ht)]
          rfl

theorem drop_eq {env : Env} {M : Module} :
    (fun f => (droppedAt env M.functions.length (M.specs.map dictCount) f).isSome = true) =
      Narrowed env M := funext fun f => propext (drop_iff f)

theorem lost_eq {env : Env} {M : Module} :
    lost (droppedAt env M.functions.length (M.specs.map dictCount)) = hidden env M := by
  funext f
  unfold lost droppedAt hidden
  cases env.loc f with
  | none => rfl
  | some i =>
    simp only [Option.bind_some]
    by_cases hi : i < M.functions.length
    · simp [hi]
    · rw [if_neg hi, if_neg hi, List.getElem?_map]
      cases M.specs[i - M.functions.length]? with
      | none => rfl
      | some b =>
        simp only [Option.map_some, Option.bind_some, dictCount]
        by_cases h0 : b.dict.count true > 0
        · simp [h0]
        · rw [if_neg h0]
          simp only [Option.getD_none]
          omega

theorem mapM_get {α β : Type} {f : α → Option β} {l : List α} {k : List β}
    (h : l.mapM f = some k) : l.length = k.length ∧
      ∀ (i : Nat) a, l[i]? = some a → ∃ b, k[i]? = some b ∧ f a = some b := by
  have hF := mapM_forall (R := fun a b => f a = some b) h fun _ _ _ h => h
  refine ⟨hF.length_eq, fun i a ha => ?_⟩
  obtain ⟨hlt, hx⟩ := List.getElem?_eq_some_iff.1 ha
  have hlt' : i < k.length := by rw [← hF.length_eq]; exact hlt
  exact ⟨k[i], List.getElem?_eq_getElem hlt', by rw [← hx]; exact List.Forall₂.get hF hlt hlt'⟩

theorem self_rel {sp : Nat → Prop} {nA nB : Nat → Nat} {F : Fn} (h : Unnamed sp F) :
    FnRel sp nA nB 0 0 F F := by
  refine ⟨⟨F.params, by omega, by omega⟩, List.forall₂_same.2 fun blk hb => ?_⟩
  have hop : ∀ op ∈ blk.ops ++ blk.term.invoked.toList, OpRel sp nA nB 0 0 op op :=
    fun op ho => .plain (opers_refl _) (h blk hb op ho)
  refine ⟨List.forall₂_same.2 fun op ho => hop op (List.mem_append_left _ ho), ?_⟩
  cases ht : blk.term with
  | goto t => exact .goto t
  | condBr c a d => exact .condBr (OperRel.refl c)
  | invoke op a d => exact .invoke (hop op (List.mem_append_right _ (by simp [ht, Term.invoked])))
  | ret => exact .ret
  | propagate => exact .propagate
  | failure => exact .failure
  | yield p t => exact .yield (OperRel.refl p)

/-- The two programs, when something is dropped. -/
theorem link {env : Env} {M M' : Module} {ext : Nat → Option Fn} (sem : Sem P V C W E)
    (hM : Formed env M ext)
    (hsem : ∀ k data vs m, (∀ v ∈ vs, CleanView (Narrowed env M) v) →
      CleanProg (Narrowed env M) (sem.op k data vs m))
    (hz : ¬ ((M.specs.map dictCount).all (· == 0)) = true) (h : dropDead env M = some M') :
    Link sem (Narrowed env M) (hidden env M) (fun _ => 0) (table env M ext) (table env M' ext) := by
  unfold dropDead at h
  simp only [hz] at h
  simp only [Bool.false_eq_true, if_false, Option.bind_eq_some_iff, Option.map_eq_some_iff] at h
  obtain ⟨fs, h1, ss, h2, rfl⟩ := h
  obtain ⟨l1, g1⟩ := mapM_get h1
  obtain ⟨l2, g2⟩ := mapM_get h2
  have l2' : M.specs.length = ss.length := by
    rw [← l2, List.length_zip, List.length_map, Nat.min_self]
  have hd : ∀ f b i, env.loc f = some i → ¬ i < M.functions.length →
      M.specs[i - M.functions.length]? = some b → hidden env M f = dictCount b := by
    intro f b i hl hi hs
    simp [hidden, hl, hi, hs, dictCount]
  refine ⟨?_, ?_, ?_, ?_, hsem⟩
  · intro f hf
    refine ⟨?_, rfl⟩
    by_contra h0
    apply hf
    unfold hidden at h0
    split at h0
    · exact absurd rfl h0
    · rename_i i hl
      split at h0
      · exact absurd rfl h0
      · rename_i hi
        split at h0
        · exact absurd rfl h0
        · rename_i b hs
          exact ⟨i, b, hl, by omega, hs, List.count_pos_iff.1 (by omega)⟩
  · rintro f ⟨i, b, hl, hi, hs, -⟩
    refine ⟨b.fn, ?_⟩
    simp only [table, hl, if_neg (by omega : ¬ i < M.functions.length), hs, Option.map_some]
  · intro f hf
    unfold table at hf ⊢
    cases hl : env.loc f with
    | none => simpa [hl] using hf
    | some i =>
      simp only [hl] at hf ⊢
      rw [← l1]
      by_cases hi : i < M.functions.length
      · rw [if_pos hi] at hf ⊢
        cases hx : M.functions[i]? with
        | none =>
          rw [List.getElem?_eq_none_iff] at hx
          omega
        | some x =>
          obtain ⟨y, hy, hr⟩ := g1 i x hx
          cases x with
          | none =>
            simp only [rewriteSlot, Option.some.injEq] at hr
            subst hr
            simp [hy]
          | some b => simp [hx] at hf
      · rw [if_neg hi] at hf ⊢
        simp only [Option.map_eq_none_iff, List.getElem?_eq_none_iff] at hf ⊢
        omega
  · intro f F hF
    unfold table at hF ⊢
    cases hl : env.loc f with
    | none =>
      simp only [hl] at hF ⊢
      refine ⟨F, hF, ?_⟩
      have : hidden env M f = 0 := by simp [hidden, hl]
      rw [this]
      exact self_rel (hM.outside f F hF)
    | some i =>
      simp only [hl] at hF ⊢
      rw [← l1]
      by_cases hi : i < M.functions.length
      · rw [if_pos hi] at hF ⊢
        have h0 : hidden env M f = 0 := by simp [hidden, hl, hi]
        rw [h0]
        simp only [Option.map_eq_some_iff, Option.join_eq_some_iff] at hF
        obtain ⟨b, hx, rfl⟩ := hF
        obtain ⟨y, hy, hr⟩ := g1 i _ hx
        simp only [rewriteSlot, Option.map_eq_some_iff] at hr
        obtain ⟨b', hr, rfl⟩ := hr
        refine ⟨b'.fn, by simp [hy], ?_⟩
        have := rewrite_rel (n := 0) (k := b.fn.params) rfl (by omega) (by omega)
          (by rw [drop_eq]; exact hM.called b (.inl (List.mem_of_getElem? hx))) hr
        rw [drop_eq, lost_eq] at this
        exact this
      · rw [if_neg hi] at hF ⊢
        simp only [Option.map_eq_some_iff] at hF
        obtain ⟨b, hx, rfl⟩ := hF
        have hb := List.mem_of_getElem? hx
        obtain ⟨n, k, hdict⟩ := hM.order b hb
        have hn : dictCount b = n := by simp [dictCount, hdict, List.count_replicate]
        obtain ⟨b', hb', hr⟩ := g2 (i - M.functions.length) (b, dictCount b) (by
          rw [List.getElem?_zip_eq_some]
          exact ⟨hx, by simp [hx]⟩)
        refine ⟨b'.fn, by simp [hb'], ?_⟩
        rw [hd f b i hl hi hx, hn]
        have := rewrite_rel (n := n) (k := k) hn (by rw [hM.arity b hb, hdict]; simp)
          (fun _ => hdict) (by rw [drop_eq]; exact hM.called b (.inr hb)) hr
        rw [drop_eq, lost_eq] at this
        exact this

theorem link_back {sem : Sem P V C W E} {sp : Nat → Prop} {nA nB : Nat → Nat}
    {tabA tabB : Nat → Option Fn} (L : Link sem sp nA nB tabA tabB) :
    Link sem sp nB nA tabB tabA := by
  refine ⟨fun f hf => ⟨(L.other f hf).2, (L.other f hf).1⟩, ?_, ?_, ?_, L.ops⟩
  · intro f hf
    obtain ⟨F, hF⟩ := L.have_ f hf
    obtain ⟨G, hG, -⟩ := L.rel f F hF
    exact ⟨G, hG⟩
  · intro f hf
    cases hA : tabA f with
    | none => rfl
    | some F =>
      obtain ⟨G, hG, -⟩ := L.rel f F hA
      rw [hf] at hG
      cases hG
  · intro f G hG
    cases hA : tabA f with
    | none =>
      rw [L.same f hA] at hG
      cases hG
    | some F =>
      obtain ⟨G', hG', hr⟩ := L.rel f F hA
      rw [hG] at hG'
      cases hG'
      exact ⟨F, rfl, hr.symm⟩

/-- **Nothing is changed but the passing of dictionaries**: a call of any function ends in some way
after the pass exactly when it ended so before, where the hidden arguments of a specialization are
left out after the pass.

Partial: scoped projections have no runs in this machine. -/
theorem C94_evidence_removed_partial {env : Env} {M M' : Module} {ext : Nat → Option Fn}
    (sem : Sem P V C W E) (hM : Formed env M ext)
    (hsem : ∀ k data vs m, (∀ v ∈ vs, CleanView (Narrowed env M) v) →
      CleanProg (Narrowed env M) (sem.op k data vs m))
    (h : dropDead env M = some M') {d f : Nat} {dicts args : List (View P V)}
    (hd : dicts.length = hidden env M f) (ha : ∀ v ∈ args, CleanView (Narrowed env M) v)
    {m : Mem C W} {r : Out P V C W E} :
    Run sem (table env M ext) (.func d f (dicts ++ args) m) r ↔
      Run sem (table env M' ext) (.func d f args m) r := by
  by_cases hz : ((M.specs.map dictCount).all (· == 0)) = true
  · have hMM : M' = M := by
      unfold dropDead at h
      simp only [hz, if_true, Option.some.injEq] at h
      exact h.symm
    have h0 : hidden env M f = 0 := by
      unfold hidden
      split
      · rfl
      · split
        · rfl
        · split
          · rfl
          · rename_i b hb
            have := List.all_eq_true.1 hz (dictCount b)
              (List.mem_map_of_mem (List.mem_of_getElem? hb))
            simpa [dictCount] using this
    rw [h0, List.length_eq_zero_iff] at hd
    rw [hMM, hd, List.nil_append]
  · have L := link sem hM hsem hz h
    exact ⟨fun hr => (transfer L hr _ (.func (b := []) hd rfl ha)).1,
      fun hr => (transfer (link_back L) hr _ (.func (a := []) rfl hd ha)).1⟩

/-- **Nothing is left**: after the pass no specialization has a dictionary parameter, and it has
the others. -/
theorem C94_none_left {env : Env} {M M' : Module} (h : dropDead env M = some M') :
    M'.specs.map (·.dict) = M.specs.map fun b => List.replicate (b.dict.count false) false := by
  have hfil : ∀ l : List Bool, l.filter (!·) = List.replicate (l.count false) false := by
    intro l
    induction l with
    | nil => rfl
    | cons x t ih => cases x <;> simp [ih, List.replicate_succ]
  have hno : ∀ b : Body, dictCount b = 0 → b.dict = List.replicate (b.dict.count false) false := by
    intro b hb
    rw [← hfil, List.filter_eq_self.2]
    intro x hx
    cases x with
    | false => rfl
    | true =>
      have := List.count_pos_iff.2 hx
      unfold dictCount at hb
      omega
  unfold dropDead at h
  simp only at h
  split at h
  · rename_i hz
    cases h
    apply List.map_congr_left
    intro b hb
    exact hno b (by simpa using List.all_eq_true.1 hz (dictCount b) (List.mem_map_of_mem hb))
  · simp only [Option.bind_eq_some_iff, Option.map_eq_some_iff] at h
    obtain ⟨fs, -, ss, h2, rfl⟩ := h
    have hF := mapM_forall (R := fun (p : Body × Nat) (b' : Body) => p.2 = dictCount p.1 →
      b'.dict = List.replicate (p.1.dict.count false) false) h2 (by
        rintro ⟨b, n⟩ - b' hr hn
        simp only at hr hn ⊢
        subst hn
        unfold rewrite at hr
        split at hr
        · rename_i h0
          cases hr
          exact hno b h0.1
        · simp only [Option.bind_eq_some_iff, Option.map_eq_some_iff] at hr
          obtain ⟨b1, hb1, bl, -, rfl⟩ := hr
          split at hb1
          · unfold removeParams at hb1
            simp only [Option.map_eq_some_iff] at hb1
            obtain ⟨bs, -, rfl⟩ := hb1
            exact hfil _
          · rename_i hpos
            cases hb1
            exact hno _ (show dictCount b = 0 by omega))
    have hlen := hF.length_eq
    rw [List.length_zip, List.length_map, Nat.min_self] at hlen
    apply List.ext_getElem?
    intro i
    rw [List.getElem?_map, List.getElem?_map]
    by_cases hi : i < M.specs.length
    · have hi' : i < ss.length := by omega
      have hz : i < (M.specs.zip (M.specs.map dictCount)).length := by
        rw [List.length_zip, List.length_map, Nat.min_self]; exact hi
      have := List.Forall₂.get hF hz hi'
      simp only [List.get_eq_getElem, List.getElem_zip, List.getElem_map, forall_const] at this
      rw [List.getElem?_eq_getElem hi, List.getElem?_eq_getElem hi']
      simp [this]
    · have hi' : ss.length ≤ i := by omega
      rw [List.getElem?_eq_none (l := ss) hi', List.getElem?_eq_none (l := M.specs) (by omega)]
      rfl

/-- A block reads a parameter. -/
def Reads (blk : Block) (p : Nat) : Prop :=
  (∃ op ∈ blk.ops ++ blk.term.invoked.toList, .param p ∈ op.operands) ∨
    (∃ a b, blk.term = .condBr (.param p) a b) ∨ ∃ t, blk.term = .yield (.param p) t

/-- No specialization reads a dictionary parameter, and calls of specializations pass constant
dictionaries, then the visible arguments and the place of the result. -/
structure Ready (env : Env) (M : Module) : Prop where
  dead : ∀ b ∈ M.specs, ∀ blk ∈ b.fn.blocks, ∀ p, Reads blk p → b.dict[p]? = some false
  calls : ∀ b, some b ∈ M.functions ∨ b ∈ M.specs → ∀ blk ∈ b.fn.blocks,
    ∀ op ∈ blk.ops ++ blk.term.invoked.toList, op.kind = .call → op.operands ≠ [] ∧
      ∀ f os, op.operands = .fn f :: os → Narrowed env M f → ∃ (cs : List Nat) (vs : List Operand),
        os = cs.map Operand.const ++ vs ∧ (∀ c ∈ cs, env.isDict c = true) ∧
        cs.length = hidden env M f ∧ vs.length = env.visible op.data + 1

theorem mapM_some {α β : Type} {f : α → Option β} {l : List α} (h : ∀ a ∈ l, ∃ b, f a = some b) :
    ∃ k, l.mapM f = some k := by
  induction l with
  | nil => exact ⟨[], rfl⟩
  | cons a t ih =>
    obtain ⟨b, hb⟩ := h a List.mem_cons_self
    obtain ⟨k, hk⟩ := ih fun a ha => h a (List.mem_cons_of_mem _ ha)
    exact ⟨b :: k, by simp [List.mapM_cons, hb, hk]⟩

theorem renumber_some (l : List Bool) : ∀ (n p : Nat), l[p]? = some false →
    ∃ q, (renumber n l)[p]? = some (some q) := by
  induction l with
  | nil => simp
  | cons x t ih =>
    intro n p h
    cases p with
    | zero =>
      simp only [List.getElem?_cons_zero, Option.some.injEq] at h
      subst h
      exact ⟨n, rfl⟩
    | succ p =>
      cases x with
      | true => simpa [renumber] using ih n p (by simpa using h)
      | false => simpa [renumber] using ih (n + 1) p (by simpa using h)

/-- Operands up to the numbers of parameters. -/
def Like (o o' : Operand) : Prop := o' = o ∨ ∃ p q, o = .param p ∧ o' = .param q

/-- Operations up to the numbers of parameters. -/
def LikeOp (op op' : Op) : Prop :=
  op'.kind = op.kind ∧ op'.data = op.data ∧ List.Forall₂ Like op.operands op'.operands

theorem renumberOperand_like {ren : List (Option Nat)} {o o' : Operand}
    (h : renumberOperand ren o = some o') : Like o o' := by
  cases o with
  | param p =>
    simp only [renumberOperand] at h
    split at h
    · cases h; exact .inr ⟨p, _, rfl, rfl⟩
    · cases h
  | _ => cases h; exact .inl rfl

theorem renumberOp_like {ren : List (Option Nat)} {op op' : Op} (h : renumberOp ren op = some op') :
    LikeOp op op' := by
  unfold renumberOp at h
  simp only [Option.map_eq_some_iff] at h
  obtain ⟨os, h1, rfl⟩ := h
  exact ⟨rfl, rfl, mapM_forall h1 fun a _ b hb => renumberOperand_like hb⟩

theorem likeOp_refl (op : Op) : LikeOp op op :=
  ⟨rfl, rfl, List.forall₂_same.2 fun _ _ => .inl rfl⟩

theorem renumberOp_some {l : List Bool} {op : Op}
    (h : ∀ p, .param p ∈ op.operands → l[p]? = some false) :
    ∃ op', renumberOp (renumber 0 l) op = some op' := by
  obtain ⟨os, hos⟩ := mapM_some (f := renumberOperand (renumber 0 l)) (l := op.operands) (by
    intro o ho
    cases o with
    | param p =>
      obtain ⟨q, hq⟩ := renumber_some l 0 p (h p ho)
      exact ⟨.param q, by simp [renumberOperand, hq]⟩
    | _ => exact ⟨_, rfl⟩)
  exact ⟨_, by simp only [renumberOp, hos, Option.map_some]; rfl⟩

theorem narrowCall_some {env : Env} {drop : Nat → Option Nat} {op op1 : Op} (hl : LikeOp op op1)
    (h : op.kind = .call → op.operands ≠ [] ∧ ∀ f os n, op.operands = .fn f :: os → drop f = some n →
      ∃ (cs : List Nat) (vs : List Operand), os = cs.map Operand.const ++ vs ∧
        (∀ c ∈ cs, env.isDict c = true) ∧ cs.length = n ∧ vs.length = env.visible op.data + 1) :
    ∃ op2, narrowCall env drop op1 = some op2 := by
  obtain ⟨k, data, os, res⟩ := op
  obtain ⟨k1, data1, os1, res1⟩ := op1
  obtain ⟨rfl, rfl, ho⟩ := hl
  simp only at h ho
  unfold narrowCall
  simp only
  by_cases hk : k1 = .call
  · obtain ⟨hne, hc⟩ := h hk
    simp only [hk, ne_eq, not_true_eq_false, if_false]
    cases ho with
    | nil => exact absurd rfl hne
    | @cons x y xs ys hxy ht =>
      cases y with
      | fn f =>
        have hx : x = .fn f := by
          rcases hxy with h1 | ⟨p, q, -, h1⟩
          · exact h1.symm
          · cases h1
        subst hx
        simp only
        cases hd : drop f with
        | none => exact ⟨_, rfl⟩
        | some n =>
          simp only
          obtain ⟨cs, vs, rfl, hdict, hlen, hvis⟩ := hc f xs n rfl hd
          have hys : ∃ ws, ys = cs.map Operand.const ++ ws ∧ ws.length = vs.length := by
            clear hc hne hlen hdict h hxy hd
            induction cs generalizing ys with
            | nil => exact ⟨ys, rfl, ht.length_eq.symm⟩
            | cons c t ih =>
              cases ht with
              | @cons _ z _ zs hz hzs =>
                obtain ⟨ws, rfl, hw⟩ := ih hzs
                rcases hz with rfl | ⟨p, q, h1, -⟩
                · exact ⟨ws, rfl, hw⟩
                · cases h1
          obtain ⟨ws, rfl, hw⟩ := hys
          have hl : (Operand.fn f :: (cs.map Operand.const ++ ws)).length = n + 1 + (env.visible data1 + 1) := by
            simp only [List.length_cons, List.length_append, List.length_map]
            omega
          simp only [hl]
          rw [if_neg (by omega), if_neg (by omega), if_pos]
          · exact ⟨_, rfl⟩
          · have : n + 1 + (env.visible data1 + 1) - (env.visible data1 + 1) = n + 1 := by omega
            rw [this, List.take_succ_cons, List.drop_succ_cons, List.drop_zero,
              List.take_append_of_le_length (by simp [hlen]), List.take_of_length_le (by simp [hlen]),
              List.all_map, List.all_eq_true]
            intro c hc
            exact hdict c hc
      | _ => exact ⟨_, rfl⟩
  · simp only [ne_eq, hk, not_false_eq_true, if_true]
    exact ⟨_, rfl⟩

theorem narrowBlocks_some {env : Env} {drop : Nat → Option Nat} {X Y : List Block}
    (hl : List.Forall₂ (fun x y : Block => List.Forall₂ LikeOp x.ops y.ops ∧
      ∀ op n e, y.term = .invoke op n e → ∃ op', x.term = .invoke op' n e ∧ LikeOp op' op) X Y)
    (h : ∀ blk ∈ X, ∀ op ∈ blk.ops ++ blk.term.invoked.toList, op.kind = .call →
      op.operands ≠ [] ∧ ∀ f os n, op.operands = .fn f :: os → drop f = some n →
      ∃ (cs : List Nat) (vs : List Operand), os = cs.map Operand.const ++ vs ∧
        (∀ c ∈ cs, env.isDict c = true) ∧ cs.length = n ∧ vs.length = env.visible op.data + 1) :
    ∃ Z, narrowBlocks env drop Y = some Z := by
  apply mapM_some
  intro y hy
  obtain ⟨i, hi, rfl⟩ := List.mem_iff_getElem.1 hy
  have hi' : i < X.length := by rw [hl.length_eq]; exact hi
  have hxy := List.Forall₂.get hl hi' hi
  simp only [List.get_eq_getElem] at hxy
  have hX := h X[i] (List.getElem_mem hi')
  obtain ⟨ops, hops⟩ := mapM_some (f := narrowCall env drop) (l := Y[i].ops) (by
    intro op ho
    obtain ⟨j, hj, rfl⟩ := List.mem_iff_getElem.1 ho
    have hj' : j < X[i].ops.length := by rw [hxy.1.length_eq]; exact hj
    have := List.Forall₂.get hxy.1 hj' hj
    exact narrowCall_some this (hX _ (List.mem_append_left _ (List.getElem_mem hj'))))
  have ht : ∃ t, narrowTerm env drop Y[i].term = some t := by
    cases hyt : Y[i].term with
    | invoke op n e =>
      obtain ⟨op', hx, hlk⟩ := hxy.2 op n e hyt
      obtain ⟨op2, h2⟩ := narrowCall_some hlk
        (hX op' (List.mem_append_right _ (by simp [hx, Term.invoked])))
      exact ⟨_, by simp only [narrowTerm, h2, Option.map_some]; rfl⟩
    | _ => exact ⟨_, rfl⟩
  obtain ⟨t, ht⟩ := ht
  exact ⟨⟨ops, t⟩, by simp [hops, ht]⟩

theorem rewrite_some {env : Env} {drop : Nat → Option Nat} {own : Nat} {b : Body}
    (hdead : own > 0 → ∀ blk ∈ b.fn.blocks, ∀ p, Reads blk p → b.dict[p]? = some false)
    (h : ∀ blk ∈ b.fn.blocks, ∀ op ∈ blk.ops ++ blk.term.invoked.toList, op.kind = .call →
      op.operands ≠ [] ∧ ∀ f os n, op.operands = .fn f :: os → drop f = some n →
      ∃ (cs : List Nat) (vs : List Operand), os = cs.map Operand.const ++ vs ∧
        (∀ c ∈ cs, env.isDict c = true) ∧ cs.length = n ∧ vs.length = env.visible op.data + 1) :
    ∃ b', rewrite env drop own b = some b' := by
  unfold rewrite
  split
  · exact ⟨b, rfl⟩
  · have hmid : ∃ b1, (if own > 0 then removeParams b else some b) = some b1 ∧
        List.Forall₂ (fun x y : Block => List.Forall₂ LikeOp x.ops y.ops ∧
          ∀ op n e, y.term = .invoke op n e → ∃ op', x.term = .invoke op' n e ∧ LikeOp op' op)
          b.fn.blocks b1.fn.blocks := by
      by_cases ho : own > 0
      · rw [if_pos ho]
        have hd := hdead ho
        have hbl : ∃ bs, (b.fn.blocks.mapM fun (blk : Block) =>
            (blk.ops.mapM (renumberOp (renumber 0 b.dict))).bind fun ops =>
            (renumberTerm (renumber 0 b.dict) blk.term).map fun t => (⟨ops, t⟩ : Block)) = some bs := by
          apply mapM_some
          intro blk hb
          obtain ⟨ops, hops⟩ := mapM_some (f := renumberOp (renumber 0 b.dict)) (l := blk.ops)
            fun op ho => renumberOp_some fun p hp =>
              hd blk hb p (.inl ⟨op, List.mem_append_left _ ho, hp⟩)
          have ht : ∃ t, renumberTerm (renumber 0 b.dict) blk.term = some t := by
            cases hbt : blk.term with
            | invoke op n e =>
              obtain ⟨op', h'⟩ := renumberOp_some (l := b.dict) (op := op) fun p hp =>
                hd blk hb p (.inl ⟨op, List.mem_append_right _ (by simp [hbt, Term.invoked]), hp⟩)
              exact ⟨_, by simp only [renumberTerm, h', Option.map_some]; rfl⟩
            | condBr c x y =>
              cases c with
              | param p =>
                obtain ⟨q, hq⟩ := renumber_some b.dict 0 p (hd blk hb p (.inr (.inl ⟨x, y, hbt⟩)))
                exact ⟨.condBr (.param q) x y, by simp [renumberTerm, renumberOperand, hq]⟩
              | _ => exact ⟨_, rfl⟩
            | yield c x =>
              cases c with
              | param p =>
                obtain ⟨q, hq⟩ := renumber_some b.dict 0 p (hd blk hb p (.inr (.inr ⟨x, hbt⟩)))
                exact ⟨.yield (.param q) x, by simp [renumberTerm, renumberOperand, hq]⟩
              | _ => exact ⟨_, rfl⟩
            | _ => exact ⟨_, rfl⟩
          obtain ⟨t, ht⟩ := ht
          exact ⟨⟨ops, t⟩, by simp [hops, ht]⟩
        obtain ⟨bs, hbs⟩ := hbl
        refine ⟨{ fn := { b.fn with params := (b.dict.filter (!·)).length, blocks := bs }
                  dict := b.dict.filter (!·) }, by simp only [removeParams, hbs, Option.map_some], ?_⟩
        refine mapM_forall hbs ?_
        intro x _ y hy
        simp only [Option.bind_eq_some_iff, Option.map_eq_some_iff] at hy
        obtain ⟨ops, h2, t, h3, rfl⟩ := hy
        refine ⟨mapM_forall h2 fun a _ c hc => renumberOp_like hc, ?_⟩
        intro op n e he
        simp only at he
        subst he
        cases hx : x.term with
        | invoke op' n' e' =>
          rw [hx] at h3
          simp only [renumberTerm, Option.map_eq_some_iff] at h3
          obtain ⟨o, ho, he⟩ := h3
          cases he
          exact ⟨op', rfl, renumberOp_like ho⟩
        | _ => rw [hx] at h3; simp [renumberTerm] at h3
      · rw [if_neg ho]
        exact ⟨b, rfl, List.forall₂_same.2 fun x _ =>
          ⟨List.forall₂_same.2 fun op _ => likeOp_refl op, fun op n e he => ⟨op, he, likeOp_refl op⟩⟩⟩
    obtain ⟨b1, hb1, hl⟩ := hmid
    obtain ⟨Z, hZ⟩ := narrowBlocks_some hl h
    exact ⟨_, by rw [hb1]; simp only [Option.bind_some, hZ, Option.map_some]; rfl⟩

/-- **No panic**: when dictionary parameters are dead and calls pass constants, the pass ends. -/
theorem C94_no_panic {env : Env} {M : Module} (h : Ready env M) : ∃ M', dropDead env M = some M' := by
  unfold dropDead
  simp only
  split
  · exact ⟨M, rfl⟩
  · have hcalls : ∀ b, some b ∈ M.functions ∨ b ∈ M.specs → ∀ blk ∈ b.fn.blocks,
        ∀ op ∈ blk.ops ++ blk.term.invoked.toList, op.kind = .call → op.operands ≠ [] ∧
          ∀ f os n, op.operands = .fn f :: os →
          droppedAt env M.functions.length (M.specs.map dictCount) f = some n →
          ∃ (cs : List Nat) (vs : List Operand), os = cs.map Operand.const ++ vs ∧
          (∀ c ∈ cs, env.isDict c = true) ∧ cs.length = n ∧ vs.length = env.visible op.data + 1 := by
      intro b hb blk hbl op ho hk
      obtain ⟨h1, h2⟩ := h.calls b hb blk hbl op ho hk
      refine ⟨h1, fun f os n hos hn => ?_⟩
      obtain ⟨cs, vs, h3, h4, h5, h6⟩ := h2 f os hos ((drop_iff f).1 (by rw [hn]; rfl))
      refine ⟨cs, vs, h3, h4, ?_, h6⟩
      rw [h5, ← lost_eq]
      simp [lost, hn]
    obtain ⟨fs, hfs⟩ := mapM_some (l := M.functions)
      (f := rewriteSlot env (droppedAt env M.functions.length (M.specs.map dictCount))) (by
        intro x hx
        cases x with
        | none => exact ⟨none, rfl⟩
        | some b =>
          obtain ⟨b', hb'⟩ := rewrite_some (env := env) (own := 0) (b := b)
            (by omega) (hcalls b (.inl hx))
          exact ⟨some b', by simp [rewriteSlot, hb']⟩)
    obtain ⟨ss, hss⟩ := mapM_some (l := M.specs.zip (M.specs.map dictCount))
      (f := fun p => rewrite env (droppedAt env M.functions.length (M.specs.map dictCount)) p.2 p.1) (by
        rintro ⟨b, n⟩ hp
        have hb := (List.of_mem_zip hp).1
        exact rewrite_some (fun _ => h.dead b hb) (hcalls b (.inr hb)))
    exact ⟨⟨fs, ss⟩, by simp only [hfs, hss, Option.bind_some, Option.map_some]⟩

/-- **Once is enough**: a second run of the pass changes nothing. -/
theorem C94_once {env : Env} {M M' : Module} (h : dropDead env M = some M') :
    dropDead env M' = some M' := by
  have h1 := C94_none_left h
  have hz : ((M'.specs.map dictCount).all (· == 0)) = true := by
    rw [List.all_eq_true]
    intro n hn
    obtain ⟨b, hb, rfl⟩ := List.mem_map.1 hn
    have : b.dict ∈ M'.specs.map (·.dict) := List.mem_map_of_mem hb
    rw [h1] at this
    obtain ⟨b0, -, hb0⟩ := List.mem_map.1 this
    simp [dictCount, ← hb0, List.count_replicate]
  unfold dropDead
  simp only [hz, if_true]

/-! ## A program -/

namespace Example

/-- Local functions are numbered as in the table; calls with data `n` have `n` visible arguments;
all constants from 100 on are dictionaries. -/
def env : Env := ⟨fun f => if f < 10 then some f else none, id, fun c => decide (100 ≤ c)⟩

/-- Records its constant arguments; anything else fails. -/
def sem : Sem Nat Nat Nat (List Nat) Nat where
  op := fun k _ vs m => match k, vs with
    | .other 0, [.const c] => .done (.ok [] none { m with world := c :: m.world })
    | _, _ => .done (.fail [] 7 m)
  test := fun _ _ => some true
  combine := fun a _ => a
  limit := 10

/-- Function 0 calls specialization 1 with one dictionary, a visible argument and the place of the
result; the specialization records the visible argument. -/
def before : Module where
  functions := [some ⟨⟨0, [⟨[⟨.call, 1, [.fn 1, .const 100, .const 5, .const 6], none⟩], .ret⟩], 0⟩, []⟩]
  specs := [⟨⟨3, [⟨[⟨.other 0, 0, [.param 1], none⟩], .ret⟩], 0⟩, [true, false, false]⟩]

/-- The same without the dictionary. -/
def after : Module where
  functions := [some ⟨⟨0, [⟨[⟨.call, 1, [.fn 1, .const 5, .const 6], none⟩], .ret⟩], 0⟩, []⟩]
  specs := [⟨⟨2, [⟨[⟨.other 0, 0, [.param 0], none⟩], .ret⟩], 0⟩, [false, false]⟩]

theorem pass : dropDead env before = some after := by decide

theorem formed : Formed env before (fun _ => none) := by
  have hn : ∀ f, Narrowed env before f → f = 1 := by
    rintro f ⟨i, b, h1, h2, h3, -⟩
    simp only [env] at h1
    split at h1
    · cases h1
      simp only [before, List.length_cons, List.length_nil] at h2 h3
      have : f - (0 + 1) < 1 := by
        by_contra h0
        rw [List.getElem?_eq_none (by simp only [List.length_cons, List.length_nil]; omega)] at h3
        cases h3
      omega
    · cases h1
  refine ⟨?_, ?_, ?_, by simp⟩
  · intro b hb
    simp only [before, List.mem_singleton] at hb
    subst hb
    exact ⟨1, 2, rfl⟩
  · intro b hb
    simp only [before, List.mem_singleton] at hb
    subst hb
    rfl
  · rintro b hb blk hblk op ho
    have hcl : (∀ o ∈ op.operands.tail, ∀ f, o ≠ .fn f) ∧
        (op.kind ≠ .call → ∀ o ∈ op.operands, ∀ f, o ≠ .fn f) := by
      simp only [before, List.mem_singleton, Option.some.injEq] at hb
      rcases hb with rfl | rfl <;> simp only [List.mem_singleton] at hblk <;> subst hblk <;>
        simp only [Term.invoked, Option.toList_none, List.append_nil, List.mem_singleton] at ho <;>
        subst ho <;> simp
    exact ⟨fun _ o ho f hf => absurd hf (hcl.1 o ho f), fun hk o ho f hf => absurd hf (hcl.2 hk o ho f)⟩

theorem sem_clean (sp : Nat → Prop) : ∀ k data vs m, (∀ v ∈ vs, CleanView sp v) →
    CleanProg sp (sem.op k data vs m) := by
  intro k data vs m _
  simp only [sem]
  split <;> simp [CleanProg]

/-- All that the theorem asks for holds here: function 0 runs to the same end. -/
example : Run sem (table env after fun _ => none) (.func 0 0 [] ⟨[9], []⟩) (.done ⟨[9], [5]⟩) := by
  refine (C94_evidence_removed_partial (dicts := []) sem formed (sem_clean _) pass rfl (by simp)).1 ?_
  refine Run.func (F := ⟨0, [⟨[⟨.call, 1, [.fn 1, .const 100, .const 5, .const 6], none⟩], .ret⟩], 0⟩)
    (r := .done ⟨[9], [5]⟩) rfl rfl ?_
  refine Run.opOk (blk := _) (op := _) rfl rfl rfl (backs := []) (res := none) (m' := ⟨[9], [5]⟩) ?_
    (Run.ret (blk := ⟨[_], _⟩) rfl rfl rfl rfl)
  refine Run.direct (r := .done ⟨[9], [5]⟩) rfl rfl ?_
  refine Run.func (F := ⟨3, [⟨[⟨.other 0, 0, [.param 1], none⟩], .ret⟩], 0⟩) (r := .done ⟨[9], [5]⟩)
    rfl rfl ?_
  exact Run.opOk (blk := _) (op := _) rfl rfl rfl (.plain rfl rfl .progOk)
    (Run.ret (blk := ⟨[_], _⟩) rfl rfl rfl rfl)

/-- A specialization that still reads its dictionary, and a call that passes something else, stop
the compiler. -/
example : dropDead env ⟨[], [⟨⟨1, [⟨[⟨.other 0, 0, [.param 0], none⟩], .ret⟩], 0⟩, [true]⟩]⟩ = none ∧
    dropDead env ⟨[some ⟨⟨0, [⟨[⟨.call, 0, [.fn 1, .const 5, .const 6], none⟩], .ret⟩], 0⟩, []⟩],
      [⟨⟨2, [⟨[], .ret⟩], 0⟩, [true, false]⟩]⟩ = none := by decide

/-- The module before the pass is ready for it. -/
example : Ready env before := by
  constructor
  · intro b hb blk hblk p hp
    simp only [before, List.mem_singleton] at hb
    subst hb
    simp only [List.mem_singleton] at hblk
    subst hblk
    rcases hp with ⟨op, ho, hp⟩ | ⟨a, b, h⟩ | ⟨t, h⟩
    · simp only [Term.invoked, Option.toList_none, List.append_nil, List.mem_singleton] at ho
      subst ho
      simp only [List.mem_singleton, Operand.param.injEq] at hp
      subst hp
      rfl
    · cases h
    · cases h
  · intro b hb blk hblk op ho hk
    simp only [before, List.mem_singleton, Option.some.injEq] at hb
    rcases hb with rfl | rfl <;> simp only [List.mem_singleton] at hblk <;> subst hblk <;>
      simp only [Term.invoked, Option.toList_none, List.append_nil, List.mem_singleton] at ho <;>
      subst ho
    · refine ⟨by simp, fun f os hos _ => ?_⟩
      cases hos
      exact ⟨[100], [.const 5, .const 6], rfl, by decide, rfl, rfl⟩
    · cases hk

end Example

end Ferlium.DeadEvidence
