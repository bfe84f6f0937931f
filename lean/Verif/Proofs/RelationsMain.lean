import Verif.Proofs.RelationsSound

/-
Edges, joins, and the induction over executions.
-/

namespace Ferlium.Relations

/-- No call has the same block on its normal and on its error edge. -/
def EdgesApart (f : Body) : Prop :=
  ∀ (b : Nat) (blk : Block) (op : Op) (n e : Nat), f.blocks[b]? = some blk → blk.term = .invoke op n e → n ≠ e

/-- At every point, what is written is not named by its symbol on entry afterwards. -/
def FreshFields (rank : Symbol → Nat) (f : Body) (r : Run) : Prop :=
  ∀ (b i : Nat) (blk : Block) (op : Op) (st : State), f.blocks[b]? = some blk → blk.allOps[i]? = some op →
    pointState rank f r b i = some st → NoStale rank f op (.op b i) st

section
variable {rank : Symbol → Nat} {f : Body} {ρ : Place → Def → Val} {m m' : Mem} {st st' : State}

theorem inv_refine (hI : Inv f ρ m st) {t : Term} {target : Nat}
    (h : ∀ p ∈ assumed rank f t target st, p.Holds (ws ρ)) :
    Inv f ρ m (refine rank f t target st) where
  agree := by unfold refine; rw [current_foldl_assume]; exact hI.agree
  absent := by unfold refine; rw [current_foldl_assume]; exact hI.absent
  facts := by unfold refine; rw [facts_foldl_assume]; exact hI.facts
  known p hp := by
    unfold refine at hp
    rcases known_foldl_assume _ _ p hp with h' | h'
    · exact h p h'
    · exact hI.known p h'

theorem zero_le_of {x : W} (h : (0 : W).sle x = true) :
    Comparison.lessOrEqual.Zero (0 - x) := by
  simp only [Comparison.Zero]
  rw [sle_iff, toInt_zero] at h ⊢
  have h1 := toInt_sub 0 x
  have h2 := toInt_bounds x
  rw [toInt_zero] at h1
  omega

/-- What a successful check says. -/
theorem resolve_some {i l w : W} (h : resolve i l = some w) :
    0 ≤ w.toInt ∧ w.toInt < l.toInt ∧ (0 ≤ i.toInt → w = i) ∧ (i.toInt < 0 → w = l + i) := by
  unfold resolve at h
  by_cases hi : i.slt 0 = true
  · simp only [if_pos hi] at h
    split at h
    · simp at h
    · rename_i hn
      simp only [Bool.or_eq_true, not_or] at hn
      simp only [Option.some.injEq] at h
      rw [h] at hn
      rw [slt_iff, sle_iff, toInt_zero] at hn
      rw [slt_iff, toInt_zero] at hi
      exact ⟨by omega, by omega, fun h' => by omega, fun _ => h.symm⟩
  · simp only [if_neg hi] at h
    split at h
    · simp at h
    · rename_i hn
      simp only [Bool.or_eq_true, not_or] at hn
      simp only [Option.some.injEq] at h
      rw [h] at hn
      rw [slt_iff, sle_iff, toInt_zero] at hn
      rw [slt_iff, toInt_zero] at hi
      exact ⟨by omega, by omega, fun _ => h.symm, fun h' => by omega⟩

/-- The least integer never resolves. -/
theorem resolve_min {i l w : W} (h : resolve i l = some w) : i.toInt ≠ -2 ^ 63 := by
  intro hi
  obtain ⟨h1, h2, _, h4⟩ := resolve_some h
  have h4 := h4 (by omega)
  subst h4
  have := toInt_add l i
  have := toInt_bounds l
  omega

theorem nonneg_of_zero {x : W} (h : Comparison.lessOrEqual.Zero (0 - x))
    (hx : x.toInt ≠ -2 ^ 63) : 0 ≤ x.toInt := by
  simp only [Comparison.Zero] at h
  rw [sle_iff, toInt_zero] at h
  have h1 := toInt_sub 0 x
  have h2 := toInt_bounds x
  rw [toInt_zero] at h1
  omega

theorem less_of_lt {x y : W} (h0 : 0 ≤ x.toInt) (h : x.toInt < y.toInt) :
    Comparison.less.Zero (x - y) := by
  simp only [Comparison.Zero]
  rw [slt_iff, toInt_zero]
  have h1 := toInt_sub x y
  have h2 := toInt_bounds x
  have h3 := toInt_bounds y
  omega

theorem holds_between {l r : Affine} {c : Comparison} {p : Predicate} {v : Symbol → W}
    (h : between rank l c r = some p) : p.Holds v ↔ c.Zero (l.eval v - r.eval v) := by
  obtain ⟨e1, e2⟩ := eval_between (v := v) h
  unfold Predicate.Holds
  rw [e1, e2]

theorem covers_field {p q : Place} {i : Nat} (h1 : p.covers q = false) (h2 : q.covers p = false) :
    p.covers (q.field i) = false := by
  rw [Bool.eq_false_iff] at *
  intro h
  simp only [Place.covers, Place.field, ne_eq, Bool.and_eq_true, beq_iff_eq,
    List.isPrefixOf_iff_prefix, not_and] at *
  obtain ⟨hr, hp⟩ := h
  rcases List.prefix_concat_iff.1 hp with he | he
  · apply h2 hr.symm
    rw [he]
    exact List.prefix_append _ _
  · exact h1 hr he

/-- What is assumed after a call which succeeded holds. -/
theorem assumed_call (hk : ParamsKept f) {op : Op} {normal error : Nat} (hI : Inv f ρ m' st')
    (hs : OpStep f op m m') :
    ∀ p ∈ assumed rank f (.invoke op normal error) normal st', p.Holds (ws ρ) := by
  intro p hp
  cases hs with
  | compute hpl hj hv hr hv' hs =>
    rename_i c args result v
    cases c <;> simp [assumed] at hp
    all_goals simp [callValue] at hv
  | resolveIndex hpl hj ho hw hr hv hs =>
    rename_i args result i l w
    simp only [assumed, if_true] at hp
    rcases args with _ | ⟨a, _ | ⟨b, _ | ⟨x, t⟩⟩⟩ <;> simp [checkOperands] at ho
    obtain ⟨rfl, rfl⟩ := ho
    have hpa := hpl a (by simp)
    have hpb := hpl b (by simp)
    have ca : m'.cell a.1 = m.cell a.1 := hs a.1 (by simp [hpa.2.1])
    have cb : m'.cell b.1 = m.cell b.1 := hs b.1 (by simp [hpb.2.1])
    have ja : m'.cell a.1 ≠ .junk := by rw [ca]; exact hj _ (by simp [callReads])
    have jb : m'.cell b.1 ≠ .junk := by rw [cb]; exact hj _ (by simp [callReads])
    unfold resolvedIndexBounds at hp
    split at hp
    · rename_i index len hi hl
      have ei := argAffine_eval hk hI (by simp) ja hi
      have el := argAffine_eval hk hI (by simp) jb hl
      rw [ca] at ei
      rw [cb] at el
      obtain ⟨h1, h2, h3, h4⟩ := resolve_some hw
      have hmin := resolve_min hw
      split at hp
      · rename_i nonneg hn
        simp only at hp
        split at hp
        · rename_i o ho
          have eo : o.eval (ws ρ) = w := by
            split at ho
            · rename_i himp
              simp only [Option.some.injEq] at ho; subst ho
              have := (holds_between hn).1 (implies_sound himp hI.known)
              rw [eval_const, ei] at this
              rw [ei]
              exact (h3 (nonneg_of_zero this hmin)).symm
            · simp only [Option.map_eq_some_iff] at ho
              obtain ⟨q, hq, rfl⟩ := ho
              obtain ⟨rfl, he⟩ := tracked_some hq
              rw [hI.placeAffine he (by rw [hv]; simp), hv]
              rfl
          split at hp
          · rename_i x y hx hy
            simp only [List.mem_cons, List.not_mem_nil, or_false] at hp
            rcases hp with rfl | rfl
            · rw [holds_between hx, eval_const, eo]
              exact zero_le_of (by rw [sle_iff, toInt_zero]; omega)
            · rw [holds_between hy, eo, el]
              exact less_of_lt h1 h2
          · simp at hp
        · simp at hp
      · simp at hp
    · simp at hp
  | arrayIndex hpl hj ho hw hr hs =>
    rename_i args result i l w
    simp only [assumed, if_true] at hp
    rcases args with _ | ⟨a, _ | ⟨b, _ | ⟨x, t⟩⟩⟩ <;> simp [checkOperands] at ho
    obtain ⟨rfl, rfl⟩ := ho
    have hpa := hpl a (by simp)
    have hpb := hpl b (by simp)
    have ca : m'.cell (a.1.field lenField) = m.cell (a.1.field lenField) :=
      hs _ (by simp [covers_field hpa.1 hpa.2])
    have cb : m'.cell b.1 = m.cell b.1 := hs b.1 (by simp [hpb.1])
    have ja : m'.cell (a.1.field lenField) ≠ .junk := by
      rw [ca]; exact hj _ (by simp [callReads])
    have jb : m'.cell b.1 ≠ .junk := by rw [cb]; exact hj _ (by simp [callReads])
    obtain ⟨h1, h2, h3, h4⟩ := resolve_some hw
    have hmin := resolve_min hw
    unfold checkedArrayIndexBounds at hp
    split at hp
    · rename_i index len hf
      have hev : index.eval (ws ρ) = (m.cell b.1).w ∧
          len.eval (ws ρ) = (m.cell (a.1.field lenField)).w := by
        unfold arrayIndexForms at hf
        simp only at hf
        split at hf
        · rename_i q hq
          obtain ⟨rfl, he⟩ := tracked_some hq
          split at hf
          · simp only [Option.map_eq_some_iff, Prod.mk.injEq] at hf
            obtain ⟨y, hy, rfl, rfl⟩ := hf
            rw [hI.argumentAffine hk hy jb, cb,
              hI.placeAffine (p := a.1.field lenField) he ja, ca]
            exact ⟨rfl, rfl⟩
          · simp at hf
        · simp at hf
      obtain ⟨ei, el⟩ := hev
      split at hp
      · rename_i nonneg hn
        split at hp
        · rename_i himp
          have hz := (holds_between hn).1 (implies_sound himp hI.known)
          rw [eval_const, ei] at hz
          have h0 := nonneg_of_zero hz hmin
          have := h3 h0
          subst this
          split at hp
          · rename_i y hy
            simp only [List.mem_cons, List.not_mem_nil, or_false] at hp
            rcases hp with rfl | rfl
            · rw [holds_between hn, eval_const, ei]
              exact hz
            · rw [holds_between hy, ei, el]
              exact less_of_lt h1 h2
          · simp at hp
        · simp at hp
      · simp at hp
    · simp at hp
  | _ => simp [assumed] at hp

/-- The entry state of a block describes the memory each edge brings. -/
theorem inv_join {t : Nat} {edge edge' e : State} (hI : Inv f ρ m edge) (hj : JoinOf t edge e)
    (hj' : JoinOf t edge' e) (hw : Within (fun _ => True) (fun d => d ≠ .join t) edge') :
    ∃ ρ', Inv f ρ' m e := by
  classical
  let ρ' (p : Place) (d : Def) : Val := if d = .join t then m.cell p else ρ p d
  have hws : ∀ x, SymIn (fun _ => True) (fun d => d ≠ .join t) x → ws ρ x = ws ρ' x := by
    rintro x ⟨p, d, rfl, hd⟩
    have hd' : d ≠ .join t := by
      rcases hd with ⟨rfl, _⟩ | hd
      · simp
      · exact hd
    simp [ws, ρ', hd']
  refine ⟨ρ', ?_, ?_, ?_, ?_⟩
  · intro q s hq hs
    rcases hj'.cur q with h | h
    · rw [hs] at h
      obtain ⟨p, d, rfl, hd⟩ := hw.cur q s h.symm
      rcases hj.cur q with h2 | h2
      · rw [hs] at h2
        obtain ⟨p', d', he, hv⟩ := hI.agree q _ hq h2.symm
        cases he
        exact ⟨p, d, rfl, by simp [ρ', hd, hv]⟩
      · rw [hs] at h2
        simp only [Option.some.injEq, Symbol.stored.injEq] at h2
        exact absurd h2.2 hd
    · rw [hs] at h
      simp only [Option.some.injEq] at h; subst h
      exact ⟨q, .join t, rfl, by simp [ρ']⟩
  · intro q hq hn
    rcases hj.cur q with h | h
    · rw [hn] at h
      simpa [ρ'] using hI.absent q hq h.symm
    · rw [hn] at h; simp at h
  · intro s g hg
    have h1 := hI.facts s g (hj.fact s g hg)
    have h2 := hj'.fact s g hg
    have hv : valOf ρ' m s = valOf ρ m s := by
      cases s with
      | reg r => rfl
      | stored p d => simp [valOf, ρ', hw.key p d g h2]
    rw [hv]
    exact factHolds_congr (fun x hx => hws x (hw.fact s g h2 x hx)) h1
  · intro p hp
    exact (holds_congr (fun x hx => hws x (hw.known p (hj'.known p hp) x hx))).1
      (hI.known p (hj.known p hp))

theorem inv_empty (m : Mem) : Inv f (fun p _ => m.cell p) m .empty where
  agree q s _ hs := by simp [State.empty] at hs
  absent q _ _ := .inr rfl
  facts s g hg := by simp [State.empty] at hg
  known p hp := by simp [State.empty] at hp

theorem pointState_zero {r : Run} {b : Nat} {e : State} (he : r.entries b = some e)
    (hv : b < f.blocks.length) : pointState rank f r b 0 = some e := by
  unfold pointState
  rw [he, List.getElem?_eq_getElem hv]
  simp [transferOps]

theorem entry_empty {r : Run} (hr : Solves rank f r) : r.entries 0 = some .empty :=
  (hr 0 .empty (by simp [joinEntry])).1

theorem step_edge {r : Run} (hr : Solves rank f r) {H : List Def} {b t : Nat} {blk : Block}
    (hp : Path f H b blk.allOps.length) (hb : f.blocks[b]? = some blk)
    (ht : t ∈ blk.term.succs) (hv : t < f.blocks.length)
    (hst : pointState rank f r b blk.allOps.length = some st)
    (hI : Inv f ρ m (refine rank f blk.term t st)) :
    ∃ ρ' st', pointState rank f r t 0 = some st' ∧ Inv f ρ' m st' := by
  by_cases ht0 : t = 0
  · subst ht0
    exact ⟨_, _, pointState_zero (entry_empty hr) hv, inv_empty m⟩
  · obtain ⟨hj, _⟩ := path_within hr (settled_true f) hp (List.getElem?_eq_some_iff.1 hb).1
    have hexit := pointState_exit hr hj hb hst
    obtain ⟨e, he, hjo⟩ := foldl_join (rank := rank) (f := f) (b := t) hexit hb (f.preds t) none
      (mem_preds hb ht)
    rw [← joinEntry_eq _ ht0] at he
    obtain ⟨edge', hjo', hw⟩ := fresh_join hr (settled_true f) hp hb ht ht0 he
    obtain ⟨ρ', hI'⟩ := inv_join hI hjo hjo' hw
    exact ⟨ρ', e, pointState_zero (hr t e he).1 hv, hI'⟩

theorem allOps_get {blk : Block} {i : Nat} {op : Op} (h : blk.ops[i]? = some op) :
    blk.allOps[i]? = some op := by
  unfold Block.allOps
  rw [List.getElem?_append_left (List.getElem?_eq_some_iff.1 h).1]
  exact h

/-- Every point an execution reaches has a state, and it describes the memory there. -/
theorem reach_inv {r : Run} (hr : Solves rank f r) (hk : ParamsKept f)
    (hfr : FreshFields rank f r) (hea : EdgesApart f) {m₀ : Mem} {b i : Nat} {m : Mem}
    (h : Reach f Calm m₀ b i m) : b < f.blocks.length →
    (∃ H, Path f H b i) ∧ ∃ ρ st, pointState rank f r b i = some st ∧ Inv f ρ m st := by
  induction h with
  | start =>
    intro hv
    exact ⟨⟨[], .start⟩, _, _, pointState_zero (entry_empty hr) hv, inv_empty m₀⟩
  | @op b i m m' blk op _ hb ho hok hs ih =>
    intro hv
    obtain ⟨⟨H, hp⟩, ρ, st, hst, hI⟩ := ih hv
    have ho' := allOps_get ho
    obtain ⟨ρ', hI'⟩ := inv_op hk hI (fresh_op hr (settled_true f) hp hv hst) (by simp) hok
      (hfr b i blk op st hb ho' hst) hs
    exact ⟨⟨_, .op hp hb (List.getElem?_eq_some_iff.1 ho').1⟩, ρ', _, pointState_succ hb ho' hst, hI'⟩
  | @goto b m blk t _ hb ht ih =>
    intro hv
    obtain ⟨⟨H, hp⟩, ρ, st, hst, hI⟩ := ih (List.getElem?_eq_some_iff.1 hb).1
    have hlen : blk.allOps.length = blk.ops.length := by simp [Block.allOps, ht]
    rw [← hlen] at hp hst
    have hsu : t ∈ blk.term.succs := by simp [ht, Term.succs]
    refine ⟨⟨_, .edge hp hb hsu⟩, ?_⟩
    refine step_edge hr hp hb hsu hv hst (inv_refine hI ?_)
    intro p hp'; simp [ht, assumed] at hp'
  | @condBr b m blk c thn els v _ hb ht hc ih =>
    intro hv
    obtain ⟨⟨H, hp⟩, ρ, st, hst, hI⟩ := ih (List.getElem?_eq_some_iff.1 hb).1
    have hlen : blk.allOps.length = blk.ops.length := by simp [Block.allOps, ht]
    rw [← hlen] at hp hst
    have hsu : (if v = true then thn else els) ∈ blk.term.succs := by
      cases v <;> simp [ht, Term.succs]
    refine ⟨⟨_, .edge hp hb hsu⟩, ?_⟩
    refine step_edge hr hp hb hsu hv hst (inv_refine hI ?_)
    intro p hp'
    rw [ht] at hp'
    simp only [assumed] at hp'
    split at hp'
    · simp at hp'
    · rename_i hne
      split at hp'
      · rename_i q hq
        have hf := (hI.facts _ _ hq).resolve_left (by simp [valOf, hc])
        obtain ⟨b', hb', h1, h2⟩ := hf
        simp only [valOf, hc, Val.bool.injEq] at hb'
        subst hb'
        cases v with
        | true =>
          simp only [if_true, List.mem_singleton] at hp'
          subst hp'; exact h1 rfl
        | false =>
          have he : ¬els = thn := fun e => hne e.symm
          simp only [Bool.false_eq_true, if_false, he, List.mem_singleton] at hp'
          subst hp'; exact h2 rfl
      · simp at hp'
  | @invokeOk b m m' blk op normal error _ hb ht hok hs ih =>
    intro hv
    have hvb := (List.getElem?_eq_some_iff.1 hb).1
    obtain ⟨⟨H, hp⟩, ρ, st, hst, hI⟩ := ih hvb
    have ho : blk.allOps[blk.ops.length]? = some op := by simp [Block.allOps, ht]
    have hlen : blk.allOps.length = blk.ops.length + 1 := by simp [Block.allOps, ht]
    obtain ⟨ρ', hI'⟩ := inv_op hk hI (fresh_op hr (settled_true f) hp hvb hst) (by simp) hok
      (hfr b _ blk op st hb ho hst) hs
    have hp2 := Path.op hp hb (by rw [hlen]; omega)
    have hst2 := pointState_succ hb ho hst
    rw [← hlen] at hp2 hst2
    have hsu : normal ∈ blk.term.succs := by simp [ht, Term.succs]
    refine ⟨⟨_, .edge hp2 hb hsu⟩, ?_⟩
    refine step_edge hr hp2 hb hsu hv hst2 (inv_refine hI' ?_)
    rw [ht]
    exact assumed_call hk hI' hs
  | @invokeFail b m m' blk op normal error _ hb ht hok hs ih =>
    intro hv
    have hvb := (List.getElem?_eq_some_iff.1 hb).1
    obtain ⟨⟨H, hp⟩, ρ, st, hst, hI⟩ := ih hvb
    have ho : blk.allOps[blk.ops.length]? = some op := by simp [Block.allOps, ht]
    have hlen : blk.allOps.length = blk.ops.length + 1 := by simp [Block.allOps, ht]
    obtain ⟨ρ', hI'⟩ := inv_fail hI (fresh_op hr (settled_true f) hp hvb hst) (by simp)
      (hfr b _ blk op st hb ho hst) hs
    have hp2 := Path.op hp hb (by rw [hlen]; omega)
    have hst2 := pointState_succ hb ho hst
    rw [← hlen] at hp2 hst2
    have hsu : error ∈ blk.term.succs := by simp [ht, Term.succs]
    refine ⟨⟨_, .edge hp2 hb hsu⟩, ?_⟩
    refine step_edge hr hp2 hb hsu hv hst2 (inv_refine hI' ?_)
    intro p hp'
    have hne : ¬error = normal := fun e => hea b blk op normal error hb ht e.symm
    rw [ht] at hp'
    cases op <;> simp [assumed, hne] at hp'

/-- A check the state decides would have succeeded. -/
theorem decision_sound (hk : ParamsKept f) (hI : Inv f ρ m st) {op : Op} {idx len : W}
    (ho : checkOperands m op = some (idx, len))
    (hj : ∀ c args res, op = .call c args res → ∀ p ∈ callReads c args, m.cell p ≠ .junk)
    (hl : 0 ≤ len.toInt) (hmin : idx.toInt = -2 ^ 63 → 0 < len.toInt) :
    (decision rank f st op = some .nonNegative → resolve idx len = some idx) ∧
      (decision rank f st op = some .negative →
        idx.toInt < 0 ∧ resolve idx len = some (len + idx)) := by
  have forms : ∀ x y, checkForms f st op = some (x, y) →
      x.eval (ws ρ) = idx ∧ y.eval (ws ρ) = len := by
    intro x y hf
    cases op with
    | call c args res =>
      have hj' := hj c args res rfl
      cases c <;> simp only [checkOperands] at ho
      case arrayResolveIndex =>
        rcases args with _ | ⟨a, _ | ⟨b, _ | ⟨z, t⟩⟩⟩ <;> simp at ho
        obtain ⟨rfl, rfl⟩ := ho
        simp only [checkForms] at hf
        split at hf
        · rename_i x' y' hx hy
          simp only [Option.some.injEq, Prod.mk.injEq] at hf
          obtain ⟨rfl, rfl⟩ := hf
          exact ⟨hI.argumentAffine hk hx (hj' _ (by simp [callReads])),
            hI.argumentAffine hk hy (hj' _ (by simp [callReads]))⟩
        · simp at hf
      case arrayIndex =>
        rcases args with _ | ⟨a, _ | ⟨b, _ | ⟨z, t⟩⟩⟩ <;> simp at ho
        obtain ⟨rfl, rfl⟩ := ho
        simp only [checkForms, arrayIndexForms] at hf
        split at hf
        · rename_i q hq
          obtain ⟨rfl, he⟩ := tracked_some hq
          split at hf
          · simp only [Option.map_eq_some_iff, Prod.mk.injEq] at hf
            obtain ⟨y', hy, rfl, rfl⟩ := hf
            exact ⟨hI.argumentAffine hk hy (hj' _ (by simp [callReads])),
              hI.placeAffine (p := a.1.field lenField) he (hj' _ (by simp [callReads]))⟩
          · simp at hf
        · simp at hf
      all_goals simp at ho
    | _ => simp [checkOperands] at ho
  unfold decision
  cases hf : checkForms f st op with
  | none => simp
  | some xy =>
    rcases xy with ⟨x, y⟩
    obtain ⟨ex, ey⟩ := forms x y hf
    have hbi := toInt_bounds idx
    have hbl := toInt_bounds len
    simp only
    split
    · rename_i hd
      simp only [Bool.and_eq_true] at hd
      refine ⟨fun _ => ?_, by simp⟩
      have h1 := impliesBetween_sound (v := ws ρ) hd.1 hI.known
      have h2 := impliesBetween_sound (v := ws ρ) hd.2 hI.known
      rw [eval_const, ex] at h1
      rw [ex, ey] at h2
      simp only [Comparison.Zero] at h1 h2
      rw [sle_iff, toInt_zero] at h1
      rw [slt_iff, toInt_zero] at h2
      have h3 := toInt_sub 0 idx
      have h4 := toInt_sub idx len
      rw [toInt_zero] at h3
      have h5 : 0 ≤ idx.toInt ∧ idx.toInt < len.toInt := by omega
      unfold resolve
      have e1 : ¬idx.slt 0 = true := by rw [slt_iff, toInt_zero]; omega
      have e2 : ¬len.sle idx = true := by rw [sle_iff]; omega
      simp only [if_neg e1]
      rw [if_neg]
      simp only [Bool.or_eq_true, not_or]
      exact ⟨e1, e2⟩
    · split
      · simp
      · rename_i o ho'
        split
        · rename_i hd
          simp only [Bool.and_eq_true] at hd
          refine ⟨by simp, fun _ => ?_⟩
          have h1 := impliesBetween_sound (v := ws ρ) hd.1.1 hI.known
          have h2 := impliesBetween_sound (v := ws ρ) hd.1.2 hI.known
          have h3 := impliesBetween_sound (v := ws ρ) hd.2 hI.known
          have eo := eval_add (v := ws ρ) ho'
          rw [ex, ey] at eo
          rw [eval_const, ex] at h1
          rw [eval_const, eo] at h2
          rw [eo, ey] at h3
          simp only [Comparison.Zero] at h1 h2 h3
          rw [sle_iff, toInt_zero] at h2
          rw [slt_iff, toInt_zero] at h1 h3
          have e0 : idx - 0 = idx := by ring
          rw [e0] at h1
          have h4 := toInt_sub 0 (len + idx)
          have h5 := toInt_add len idx
          rw [toInt_zero] at h4
          refine ⟨h1, ?_⟩
          have h6 : (len + idx).toInt = len.toInt + idx.toInt ∧ 0 ≤ (len + idx).toInt := by omega
          unfold resolve
          have e1 : idx.slt 0 = true := by rw [slt_iff, toInt_zero]; omega
          simp only [if_pos e1]
          rw [if_neg]
          simp only [Bool.or_eq_true, not_or]
          rw [slt_iff, sle_iff, toInt_zero]
          omega
        · simp

/-! ### A condition on the body alone -/

/-- Some operation gives new contents to a slot of the root. -/
def Rewritten (f : Body) (root : Root) : Prop :=
  ∃ (b : Nat) (blk : Block) (op : Op), f.blocks[b]? = some blk ∧ op ∈ blk.allOps ∧
    ∃ p ∈ op.writes, p.root = root

/-- The slots read are whole roots, or lie in roots which are never rewritten. -/
def ReadsKept (f : Body) : Prop :=
  Settled (fun q => q.path = [] ∨ ¬Rewritten f q.root) f

variable {E : Place → Prop} {D : Def → Prop}

theorem within_rejoin {b : Nat} {x y : State} (w : Within E D x) (hd : D (.join b)) :
    Within E D (rejoin b x y) where
  cur q s hs := by
    simp only [rejoin] at hs
    split at hs
    · exact w.cur q s hs
    · simp only [Option.some.injEq] at hs; subst hs; exact ⟨q, .join b, rfl, hd⟩
  key p d g hg := by
    simp only [rejoin] at hg
    split at hg
    · exact w.key p d g hg
    · simp at hg
  fact s g hg := by
    simp only [rejoin] at hg
    split at hg
    · exact w.fact s g hg
    · simp at hg
  known p hp := w.known p (List.mem_of_mem_filter hp)

theorem within_joinEntry (hE : Settled E f) (hd : ∀ d, d ≠ .entry → D d)
    {exits : Nat → Option State} (hx : ∀ a st, exits a = some st → Within E D st) {b : Nat}
    {e : State} (h : joinEntry rank f exits b = some e) : Within E D e := by
  by_cases hb : b = 0
  · unfold joinEntry at h
    rw [if_pos hb] at h
    simp only [Option.some.injEq] at h; subst h
    exact within_empty _ _
  · rw [joinEntry_eq _ hb] at h
    have key : ∀ (as : List Nat) (acc : Option State), (∀ x, acc = some x → Within E D x) →
        ∀ e, as.foldl (joinStep rank f exits b) acc = some e → Within E D e := by
      intro as
      induction as with
      | nil => intro acc hacc e he; exact hacc e he
      | cons a as ih =>
        intro acc hacc e he
        rw [List.foldl_cons] at he
        refine ih _ ?_ e he
        intro x hx'
        unfold joinStep at hx'
        split at hx'
        · rename_i st blk hst hblk
          have we := within_refine (rank := rank) (f := f) (hx a st hst) blk.term b
            (settled_term hE hblk)
          simp only at hx'
          split at hx'
          · rename_i y
            simp only [Option.some.injEq] at hx'; subst hx'
            exact within_rejoin (hacc y rfl) (hd _ (by simp))
          · simp only [Option.some.injEq] at hx'; subst hx'
            exact we
        · exact hacc x hx'
    exact key _ none (by simp) e h

theorem within_ops (hE : Settled E f) (hd : ∀ d, d ≠ .entry → D d) {b : Nat} {blk : Block}
    (hb : f.blocks[b]? = some blk) : ∀ (ops : List Op) (i : Nat) (st : State),
    (∀ op ∈ ops, op ∈ blk.allOps) → Within E D st → Within E D (transferOps rank f b i ops st) := by
  intro ops
  induction ops with
  | nil => intro i st _ w; exact w
  | cons op ops ih =>
    intro i st ho w
    exact ih _ _ (fun x hx => ho x (List.mem_cons_of_mem op hx))
      (within_transfer w (hd _ (by simp)) (hE b blk op hb (ho op List.mem_cons_self)))

theorem within_exitState (hE : Settled E f) (hd : ∀ d, d ≠ .entry → D d) {b : Nat} {e : State}
    (w : Within E D e) : Within E D (exitState rank f b e) := by
  unfold exitState
  split
  · rename_i blk hb
    exact within_ops hE hd hb _ _ _ (fun _ h => h) w
  · exact w

theorem within_runs (hE : Settled E f) (hd : ∀ d, d ≠ .entry → D d) {r : Run}
    (h : Runs rank f r) : (∀ b e, r.entries b = some e → Within E D e) ∧
      (∀ b e, r.exits b = some e → Within E D e) := by
  induction h with
  | start => simp [Run.start]
  | @step r r' _ s ih =>
    obtain ⟨ih1, ih2⟩ := ih
    cases s with
    | unreached => exact ⟨ih1, ih2⟩
    | unchanged => exact ⟨ih1, ih2⟩
    | @sameExit b e hq he hnew hx =>
      refine ⟨?_, ih2⟩
      intro x e' hxe
      simp only at hxe
      split at hxe
      · simp only [Option.some.injEq] at hxe; subst hxe
        exact within_joinEntry hE hd ih2 he
      · exact ih1 x e' hxe
    | @newExit b e hq he hnew hx =>
      have we := within_joinEntry hE hd ih2 he
      refine ⟨?_, ?_⟩
      · intro x e' hxe
        simp only at hxe
        split at hxe
        · simp only [Option.some.injEq] at hxe; subst hxe; exact we
        · exact ih1 x e' hxe
      · intro x e' hxe
        simp only at hxe
        split at hxe
        · simp only [Option.some.injEq] at hxe; subst hxe
          exact within_exitState hE hd we
        · exact ih2 x e' hxe

theorem define_root {p q : Place} {d : Def} {o : Option Fact} (hq : q.path = []) :
    (st.define p d o).current q = if q = p then some (.stored p d) else st.current q := by
  unfold State.define State.setFact
  simp only
  split
  · rfl
  · rename_i hne
    rw [if_neg]
    intro h
    simp only [Place.inside, Place.covers, hq, Bool.and_eq_true, beq_iff_eq, bne_iff_ne,
      List.isPrefixOf_iff_prefix, List.prefix_nil] at h
    apply hne
    rcases p with ⟨pr, pp⟩
    rcases q with ⟨qr, qp⟩
    simp only at h hq
    rw [hq, h.1.1, h.1.2]

theorem define_root_kept {p q : Place} {d : Def} {o : Option Fact} (hq : q.path = [])
    (h : st.current q ≠ none) : (st.define p d o).current q ≠ none := by
  rw [define_root hq]
  split
  · simp
  · exact h

theorem forget_root {c : Callee} {d : Def} {q : Place} (hq : q.path = []) :
    ∀ (args : List (Place × Bool)) (st : State), st.current q ≠ none →
    (forgetArgs f c d args st).current q ≠ none := by
  intro args
  unfold forgetArgs
  split
  · intro st h; exact h
  · induction args with
    | nil => intro st h; exact h
    | cons a args ih =>
      intro st h
      rw [List.foldl_cons]
      apply ih
      split
      · exact define_root_kept hq h
      · exact h

theorem forget_root_arg {c : Callee} (hc : c ≠ .arrayIndex) {d : Def} {q : Place}
    (hq : q.path = []) (he : f.escaped q.root = false) :
    ∀ (args : List (Place × Bool)) (st : State), (q, true) ∈ args →
    (forgetArgs f c d args st).current q ≠ none := by
  intro args
  induction args with
  | nil => intro st h; simp at h
  | cons a args ih =>
    intro st h
    have hcons : ∀ st', forgetArgs f c d (a :: args) st' = forgetArgs f c d args
        (match a.2, tracked f a.1 with
          | true, some p => st'.define p d none
          | _, _ => st') := by
      intro st'
      unfold forgetArgs
      rw [if_neg hc, if_neg hc, List.foldl_cons]
      rfl
    rw [hcons]
    rcases List.mem_cons.1 h with h | h
    · apply forget_root hq
      rw [← h]
      simp only [tracked_of he]
      rw [define_root hq]
      simp
    · exact ih _ h

theorem copy_root {src : Option Place} {dst : Place} {d : Def} :
    (st.copy src dst d).current dst ≠ none := by
  unfold State.copy
  split
  · simp [State.define, State.setFact]
  · simp only
    split
    · simp
    · simp [State.define, State.setFact]

/-- A whole root which is written has a current symbol afterwards. -/
theorem writes_root {op : Op} {d : Def} {p : Place} (hp : p ∈ op.writes) (hpath : p.path = [])
    (he : f.escaped p.root = false) : (transfer rank f op d st).current p ≠ none := by
  cases op with
  | storeConst w dst =>
    simp only [Op.writes, List.mem_singleton] at hp; subst hp
    simp [transfer, tracked_of he, define_root hpath]
  | storeReg r dst =>
    simp only [Op.writes, List.mem_singleton] at hp; subst hp
    simp [transfer, tracked_of he, define_root hpath]
  | buildArray n dst =>
    simp only [Op.writes, List.mem_singleton] at hp; subst hp
    simp only [transfer, tracked_of he]
    apply define_root_kept hpath
    simp [define_root hpath]
  | memcpy src dst =>
    simp only [Op.writes, List.mem_singleton] at hp; subst hp
    simp only [transfer, tracked_of he]
    exact copy_root
  | move src dst =>
    simp only [Op.writes, List.mem_singleton] at hp; subst hp
    simp only [transfer, tracked_of he]
    split
    · exact define_root_kept hpath copy_root
    · exact copy_root
  | clone src dst =>
    simp only [Op.writes, List.mem_singleton] at hp; subst hp
    simp [transfer, tracked_of he, define_root hpath]
  | call c args result =>
    simp only [Op.writes, List.mem_cons] at hp
    simp only [transfer]
    rcases hp with rfl | hp
    · simp [tracked_of he, define_root hpath]
    · split at hp
      · simp at hp
      · rename_i hc
        simp only [List.mem_map, List.mem_filter] at hp
        obtain ⟨a, ⟨ha, h2⟩, rfl⟩ := hp
        have := forget_root_arg (f := f) (d := d) hc hpath he args st (by
          rcases a with ⟨a, b⟩
          simp only at h2
          subst h2
          exact ha)
        split
        · exact define_root_kept hpath this
        · exact this
  | _ => simp [Op.writes] at hp

/-- Bodies which read only whole roots and parts of roots they never rewrite have no stale field. -/
theorem fresh_of_reads {r : Run} (h : Finished rank f r) (hE : ReadsKept f) :
    FreshFields rank f r := by
  intro b i blk op st hb ho hst p hp q hq hcov hnone hm
  have hop : op ∈ blk.allOps := List.mem_of_getElem? ho
  obtain ⟨hw, _⟩ := within_runs (D := fun d => d ≠ .entry) hE (fun _ h => h) h.1
  have ws : Within (fun q => q.path = [] ∨ ¬Rewritten f q.root) (fun d => d ≠ .entry) st := by
    unfold pointState at hst
    split at hst
    · rename_i e blk' he hb'
      rw [hb] at hb'
      simp only [Option.some.injEq] at hb' hst
      subst hb' hst
      exact within_ops hE (fun _ h => h) hb _ _ _ (fun x hx => List.mem_of_mem_take hx) (hw b e he)
    · simp at hst
  have wt : Within (fun q => q.path = [] ∨ ¬Rewritten f q.root) (fun d => d ≠ .entry) (transfer rank f op (.op b i) st) :=
    within_transfer ws (by simp) (hE b blk op hb hop)
  have fin : q.path = [] ∨ ¬Rewritten f q.root := by
    have sym : SymIn (fun q => q.path = [] ∨ ¬Rewritten f q.root) (fun d => d ≠ .entry)
        (.stored q .entry) → q.path = [] ∨ ¬Rewritten f q.root := by
      rintro ⟨p', d', e, h⟩
      cases e
      rcases h with ⟨_, h⟩ | h
      · exact h
      · exact absurd rfl h
    rcases hm with ⟨q', h⟩ | ⟨g, h⟩ | ⟨t, g, h, hs⟩ | ⟨k, h, hs⟩
    · obtain ⟨p', d', e, hd⟩ := wt.cur _ _ h
      cases e
      exact absurd rfl hd
    · exact absurd rfl (wt.key _ _ _ h)
    · exact sym (wt.fact _ _ h _ hs)
    · exact sym (wt.known _ h _ hs)
  rcases fin with hpath | hnr
  · have hpp : p = q := by
      simp only [Place.covers, hpath, Bool.and_eq_true, beq_iff_eq,
        List.isPrefixOf_iff_prefix, List.prefix_nil] at hcov
      rcases p with ⟨pr, pp⟩
      rcases q with ⟨qr, qp⟩
      simp only at hcov hpath
      rw [hpath, hcov.1, hcov.2]
    subst hpp
    exact writes_root hp hpath hq hnone
  · exact hnr ⟨b, blk, op, hb, hop, p, hp, covers_root hcov⟩

end

end Ferlium.Relations
