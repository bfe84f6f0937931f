import Verif.Model.Specialize
import Verif.Proofs.DeadEvidence

/-!
# Two programs in which calls go to functions with bound arguments
-/

namespace Ferlium.Specialize

open Inline DeadEvidence

variable {P V C W E : Type}

/-- Parameters bound to constants. -/
abbrev Binding := Nat → Option Nat

/-- Arguments that agree with a binding. -/
def Meets (bd : Binding) (args : List (View P V)) : Prop :=
  ∀ p c, bd p = some c → args[p]? = some (.const c)

/-- The operand has the value `c` where parameters are bound. -/
def Fixed (bd : Binding) (c : Nat) (o : Operand) : Prop :=
  o = .const c ∨ ∃ q, o = .param q ∧ bd q = some c

/-- Operands with the same value where parameters are bound. -/
inductive OperRel (bd : Binding) : Operand → Operand → Prop
  | same (o : Operand) : OperRel bd o o
  | bind {p c : Nat} : bd p = some c → OperRel bd (.param p) (.const c)
  | unbind {p c : Nat} : bd p = some c → OperRel bd (.const c) (.param p)

/-- Payloads with the same meaning. -/
def SameData (sem : Sem P V C W E) (k : Kind) (x y : Nat) : Prop :=
  ∀ vs m, sem.op k x vs m = sem.op k y vs m

/-- Operations. -/
inductive OpRel (sem : Sem P V C W E) (sp : Nat → Prop) (K : Nat → Nat → Binding → Prop)
    (bd : Binding) : Op → Op → Prop
  | plain {k : Kind} {x y : Nat} {os os' : List Operand} {res : Option Reg} : SameData sem k x y →
      List.Forall₂ (OperRel bd) os os' → (∀ o ∈ os, CleanOperand sp o) →
      OpRel sem sp K bd ⟨k, x, os, res⟩ ⟨k, y, os', res⟩
  | call {x y f g : Nat} {bd' : Binding} {xs ys : List Operand} {res : Option Reg} : K f g bd' →
      f ≠ g → List.Forall₂ (OperRel bd) xs ys → (∀ o ∈ xs, CleanOperand sp o) →
      (∀ p c, bd' p = some c → ∃ o, xs[p]? = some o ∧ Fixed bd c o) →
      OpRel sem sp K bd ⟨.call, x, .fn f :: xs, res⟩ ⟨.call, y, .fn g :: ys, res⟩

/-- Terminators. -/
inductive TermRel (sem : Sem P V C W E) (sp : Nat → Prop) (K : Nat → Nat → Binding → Prop)
    (bd : Binding) : Term → Term → Prop
  | goto (t) : TermRel sem sp K bd (.goto t) (.goto t)
  | condBr {c c' a b} : OperRel bd c c' → TermRel sem sp K bd (.condBr c a b) (.condBr c' a b)
  | invoke {op op' n e} : OpRel sem sp K bd op op' →
      TermRel sem sp K bd (.invoke op n e) (.invoke op' n e)
  | ret : TermRel sem sp K bd .ret .ret
  | propagate : TermRel sem sp K bd .propagate .propagate
  | failure : TermRel sem sp K bd .failure .failure
  | yield {p p' t} : OperRel bd p p' → TermRel sem sp K bd (.yield p t) (.yield p' t)

/-- Blocks. -/
def BlockRel (sem : Sem P V C W E) (sp : Nat → Prop) (K : Nat → Nat → Binding → Prop)
    (bd : Binding) (x y : Block) : Prop :=
  List.Forall₂ (OpRel sem sp K bd) x.ops y.ops ∧ TermRel sem sp K bd x.term y.term

/-- Functions. -/
def FnRel (sem : Sem P V C W E) (sp : Nat → Prop) (K : Nat → Nat → Binding → Prop)
    (bd : Binding) (F G : Fn) : Prop :=
  F.params = G.params ∧ List.Forall₂ (BlockRel sem sp K bd) F.blocks G.blocks

/-- Two programs; `K f g bd` says that `g` of the second does what `f` of the first does when its
arguments agree with `bd`. -/
structure Link (sem : Sem P V C W E) (sp : Nat → Prop) (K : Nat → Nat → Binding → Prop)
    (tabA tabB : Nat → Option Fn) : Prop where
  self : ∀ f, ¬ sp f → K f f fun _ => none
  own : ∀ f bd, K f f bd → ¬ sp f
  have_ : ∀ f g bd, K f g bd → f ≠ g → ∃ F, tabA f = some F
  same : ∀ f, ¬ sp f → tabA f = none → tabB f = none
  rel : ∀ f g bd F, K f g bd → tabA f = some F → ∃ G, tabB g = some G ∧ FnRel sem sp K bd F G
  ops : ∀ k data vs m, (∀ v ∈ vs, CleanView sp v) → CleanProg sp (sem.op k data vs m)

/-- Frames. -/
structure Good (sp : Nat → Prop) (bd : Binding) (st : Frame P V E) : Prop where
  params : Meets bd st.params
  cleanParams : ∀ v ∈ st.params, CleanView sp v
  clean : ∀ r v, st.slots r = some v → CleanView sp v

/-- Pieces of execution. -/
inductive JobRel (sem : Sem P V C W E) (sp : Nat → Prop) (K : Nat → Nat → Binding → Prop) :
    Job P V C W E → Job P V C W E → Prop
  | func {d f g bd args m} : K f g bd → Meets bd args → (∀ v ∈ args, CleanView sp v) →
      JobRel sem sp K (.func d f args m) (.func d g args m)
  | prog {d p} : CleanProg sp p → JobRel sem sp K (.prog d p) (.prog d p)
  | exec {d k x y vs m} : SameData sem k x y → (∀ v ∈ vs, CleanView sp v) →
      JobRel sem sp K (.exec d k x vs m) (.exec d k y vs m)
  | call {d x y f g bd args m} : K f g bd → f ≠ g → Meets bd args → (∀ v ∈ args, CleanView sp v) →
      JobRel sem sp K (.exec d .call x (.fn f :: args) m) (.exec d .call y (.fn g :: args) m)
  | code {d bd F G st b n m} : FnRel sem sp K bd F G → Good sp bd st →
      JobRel sem sp K (.code d F st b n m) (.code d G st b n m)

theorem view_rel {sp : Nat → Prop} {bd : Binding} {st : Frame P V E} (hs : Good sp bd st)
    {o o' : Operand} (h : OperRel bd o o') : st.view o = st.view o' := by
  cases h with
  | same => rfl
  | bind h => exact hs.params _ _ h
  | unbind h => exact (hs.params _ _ h).symm

theorem view_clean {sp : Nat → Prop} {bd : Binding} {st : Frame P V E} (hs : Good sp bd st)
    {o : Operand} (hc : CleanOperand sp o) {v : View P V}
    (hv : st.view o = some v) : CleanView sp v := by
  cases o with
  | param p => exact hs.cleanParams v (List.mem_of_getElem? hv)
  | reg r => exact hs.clean r v hv
  | fn f =>
    simp only [Frame.view, Option.some.injEq] at hv
    subst hv
    intro g hg
    cases hg
    exact hc f rfl
  | const c =>
    simp only [Frame.view, Option.some.injEq] at hv
    subst hv
    intro g hg
    cases hg

theorem views_rel {sp : Nat → Prop} {bd : Binding} {st : Frame P V E}
    (hs : Good sp bd st) {os os' : List Operand} (h : List.Forall₂ (OperRel bd) os os')
    (hc : ∀ o ∈ os, CleanOperand sp o) {vs : List (View P V)} (hv : os.mapM st.view = some vs) :
    os'.mapM st.view = some vs ∧ ∀ v ∈ vs, CleanView sp v := by
  induction h generalizing vs with
  | nil =>
    simp only [List.mapM_nil, Option.pure_def, Option.some.injEq] at hv ⊢
    subst hv
    exact ⟨rfl, by simp⟩
  | @cons o o' t t' ho _ ih =>
    simp only [List.mapM_cons, Option.bind_eq_bind, Option.bind_eq_some_iff, Option.pure_def,
      Option.some.injEq] at hv ⊢
    obtain ⟨v, hv1, ws, hv2, rfl⟩ := hv
    obtain ⟨h1, h2⟩ := ih (fun o ho => hc o (List.mem_cons_of_mem _ ho)) hv2
    refine ⟨⟨v, by rw [← view_rel hs ho]; exact hv1, ws, h1, rfl⟩, fun w hw => ?_⟩
    rcases List.mem_cons.1 hw with rfl | hw
    · exact view_clean hs (hc o List.mem_cons_self) hv1
    · exact h2 w hw

theorem mapM_at {α β : Type} {f : α → Option β} {l : List α} {k : List β} (h : l.mapM f = some k)
    {p : Nat} {o : α} (ho : l[p]? = some o) : k[p]? = f o := by
  induction l generalizing k p with
  | nil => simp at ho
  | cons a t ih =>
    simp only [List.mapM_cons, Option.bind_eq_bind, Option.bind_eq_some_iff, Option.pure_def,
      Option.some.injEq] at h
    obtain ⟨b, hb, k', hk, rfl⟩ := h
    cases p with
    | zero =>
      simp only [List.getElem?_cons_zero, Option.some.injEq] at ho ⊢
      rw [← ho, hb]
    | succ p => simpa using ih hk (by simpa using ho)

/-- What an operation does in the two programs. -/
theorem exec_rel {sem : Sem P V C W E} {sp : Nat → Prop} {K : Nat → Nat → Binding → Prop}
    {bd : Binding} {st : Frame P V E} (hs : Good sp bd st) {op op' : Op}
    (h : OpRel sem sp K bd op op') {vs : List (View P V)}
    (hv : op.operands.mapM st.view = some vs) (d : Nat) (m : Mem C W) :
    ∃ vs', op'.operands.mapM st.view = some vs' ∧
      JobRel sem sp K (.exec d op.kind op.data vs m) (.exec d op'.kind op'.data vs' m) := by
  cases h with
  | plain hd ho hc =>
    obtain ⟨h1, h2⟩ := views_rel hs ho hc hv
    exact ⟨vs, h1, .exec hd h2⟩
  | @call x y f g bd' xs ys res hK hne ho hc hfix =>
    simp only [List.mapM_cons, Option.bind_eq_bind, Option.bind_eq_some_iff, Option.pure_def,
      Option.some.injEq] at hv
    obtain ⟨v, hv1, ws, hv2, rfl⟩ := hv
    obtain ⟨h1, h2⟩ := views_rel hs ho hc hv2
    simp only [Frame.view, Option.some.injEq] at hv1
    subst hv1
    refine ⟨.fn g :: ws, ?_, .call hK hne ?_ h2⟩
    · simp only [List.mapM_cons, h1]
      rfl
    · intro p c hpc
      obtain ⟨o, ho1, ho2⟩ := hfix p c hpc
      rw [mapM_at hv2 ho1]
      rcases ho2 with rfl | ⟨q, rfl, hq⟩
      · rfl
      · exact hs.params q c hq

theorem OpRel.same {sem : Sem P V C W E} {sp : Nat → Prop} {K : Nat → Nat → Binding → Prop}
    {bd : Binding} {op op' : Op} (h : OpRel sem sp K bd op op') :
    op.kind = op'.kind ∧ op.result = op'.result := by
  cases h <;> exact ⟨rfl, rfl⟩

theorem writeBack_rel {bd : Binding} {os os' : List Operand} (h : List.Forall₂ (OperRel bd) os os') :
    ∀ (slots : Reg → Option (View P V)) (backs : List V),
      writeBack slots os backs = writeBack slots os' backs := by
  induction h with
  | nil => intro slots backs; rfl
  | @cons o o' t t' ho _ ih =>
    intro slots backs
    cases backs with
    | nil => cases ho <;> (try cases o) <;> rfl
    | cons x xs =>
      cases ho with
      | same => cases o <;> simp only [writeBack, ih]
      | bind _ => simp only [writeBack, ih]
      | unbind _ => simp only [writeBack, ih]

theorem after_rel {sem : Sem P V C W E} {sp : Nat → Prop} {K : Nat → Nat → Binding → Prop}
    {bd : Binding} {st : Frame P V E} (hs : Good sp bd st) {op op' : Op}
    (h : OpRel sem sp K bd op op') {backs : List V} {res : Option (View P V)}
    (hr : ∀ v, res = some v → CleanView sp v) :
    st.after op backs res = st.after op' backs res ∧ Good sp bd (st.after op backs res) := by
  have hw : writeBack st.slots op.operands backs = writeBack st.slots op'.operands backs := by
    cases h with
    | plain _ ho _ => exact writeBack_rel ho _ _
    | call _ _ ho _ _ =>
      cases backs with
      | nil => rfl
      | cons x xs => simp only [writeBack, writeBack_rel ho]
  have hres := h.same.2
  refine ⟨by simp only [Frame.after, hw, hres], hs.params, hs.cleanParams, ?_⟩
  intro r v hv
  simp only [Frame.after] at hv
  have hcl := writeBack_clean op.operands st.slots backs hs.clean
  cases ho : op.result with
  | none => rw [ho] at hv; exact hcl r v hv
  | some r' =>
    rw [ho] at hv
    cases res with
    | none => exact hcl r v hv
    | some v' =>
      simp only [] at hv
      by_cases hq : r = r'
      · subst hq
        rw [Function.update_self] at hv
        cases hv
        exact hr _ rfl
      · rw [Function.update_of_ne hq] at hv
        exact hcl r v hv

theorem set_rel {sp : Nat → Prop} {bd : Binding} {st : Frame P V E} (hs : Good sp bd st)
    (r : Reg) (n : Nat) : Good sp bd (st.set r (.mark n)) := by
  refine ⟨hs.params, hs.cleanParams, ?_⟩
  intro q v hv
  simp only [Frame.set] at hv
  by_cases hq : q = r
  · subst hq
    rw [Function.update_self] at hv
    cases hv
    intro f hf
    cases hf
  · rw [Function.update_of_ne hq] at hv
    exact hs.clean q v hv

theorem fail_rel {sp : Nat → Prop} {bd : Binding} {st st1 : Frame P V E} (hs : Good sp bd st) {e : E}
    (h : st.fail e = some st1) : Good sp bd st1 := by
  unfold Frame.fail at h
  split at h
  · cases h; exact ⟨hs.params, hs.cleanParams, hs.clean⟩
  · cases h; exact ⟨hs.params, hs.cleanParams, hs.clean⟩
  · cases h

theorem block_rel {sem : Sem P V C W E} {sp : Nat → Prop} {K : Nat → Nat → Binding → Prop}
    {bd : Binding} {F G : Fn} (h : FnRel sem sp K bd F G) {b : Nat} {blk : Block}
    (hb : F.blocks[b]? = some blk) :
    ∃ blk', G.blocks[b]? = some blk' ∧ BlockRel sem sp K bd blk blk' := by
  obtain ⟨hlt, hx⟩ := List.getElem?_eq_some_iff.1 hb
  have hlt' : b < G.blocks.length := by rw [← h.2.length_eq]; exact hlt
  refine ⟨G.blocks[b], List.getElem?_eq_getElem hlt', ?_⟩
  rw [← hx]
  exact List.Forall₂.get h.2 hlt hlt'

theorem op_rel {sem : Sem P V C W E} {sp : Nat → Prop} {K : Nat → Nat → Binding → Prop}
    {bd : Binding} {x y : Block} (h : BlockRel sem sp K bd x y) {k : Nat} {op : Op}
    (ho : x.ops[k]? = some op) : ∃ op', y.ops[k]? = some op' ∧ OpRel sem sp K bd op op' := by
  obtain ⟨hlt, hx⟩ := List.getElem?_eq_some_iff.1 ho
  have hlt' : k < y.ops.length := by rw [← h.1.length_eq]; exact hlt
  refine ⟨y.ops[k], List.getElem?_eq_getElem hlt', ?_⟩
  rw [← hx]
  exact List.Forall₂.get h.1 hlt hlt'

/-- **The two programs run alike.** -/
theorem transfer {sem : Sem P V C W E} {sp : Nat → Prop} {K : Nat → Nat → Binding → Prop}
    {tabA tabB : Nat → Option Fn} (L : Link sem sp K tabA tabB) {job : Job P V C W E}
    {r : Out P V C W E} (h : Run sem tabA job r) :
    ∀ job', JobRel sem sp K job job' → Run sem tabB job' r ∧ CleanOut sp r := by
  induction h with
  | @func d f args m F r hF hlen _ ih =>
    intro job' hj
    cases hj with
    | @func _ _ g bd _ _ hK hm hc =>
      obtain ⟨G, hG, hrel⟩ := L.rel f g bd F hK hF
      obtain ⟨h1, -⟩ := ih _ (.code hrel ⟨hm, hc, by simp⟩)
      have hp := plain_of h1
      refine ⟨.func hG (by rw [hlen, hrel.1]) h1, ?_⟩
      simp only [Plain] at hp
      cases r <;> simp_all [Out.close, CleanOut]
  | progOk =>
    intro job' hj
    cases hj with
    | prog hc => exact ⟨.progOk, hc⟩
  | progFail =>
    intro job' hj
    cases hj with
    | prog hc => exact ⟨.progFail, trivial⟩
  | progPoison =>
    intro job' hj
    cases hj with
    | prog hc => exact ⟨.progPoison, trivial⟩
  | callOk _ _ ih1 ih2 =>
    intro job' hj
    cases hj with
    | prog hc =>
      obtain ⟨h1, h2, h3⟩ := hc
      obtain ⟨r2, c2⟩ := ih2 _ (.prog (h3 _ _))
      exact ⟨.callOk (ih1 _ (.func (L.self _ h1) (by simp [Meets]) h2)).1 r2, c2⟩
  | callErr _ _ ih1 ih2 =>
    intro job' hj
    cases hj with
    | prog hc =>
      obtain ⟨h1, h2, h3⟩ := hc
      obtain ⟨r2, c2⟩ := ih2 _ (.prog (h3 _ _))
      exact ⟨.callErr (ih1 _ (.func (L.self _ h1) (by simp [Meets]) h2)).1 r2, c2⟩
  | callPoison _ ih1 =>
    intro job' hj
    cases hj with
    | prog hc =>
      obtain ⟨h1, h2, h3⟩ := hc
      exact ⟨.callPoison (ih1 _ (.func (L.self _ h1) (by simp [Meets]) h2)).1, trivial⟩
  | callDeep _ ih1 =>
    intro job' hj
    cases hj with
    | prog hc =>
      obtain ⟨h1, h2, h3⟩ := hc
      exact ⟨.callDeep (ih1 _ (.func (L.self _ h1) (by simp [Meets]) h2)).1, trivial⟩
  | @direct d data f args m r hf hp hrun ih =>
    intro job' hj
    obtain ⟨F, hF⟩ := Option.isSome_iff_exists.1 hf
    have hclean : CleanOut sp r.asOp := by
      have := plain_of hrun
      simp only [Plain] at this
      cases r <;> simp_all [Out.asOp, CleanOut]
    cases hj with
    | exec _ hc =>
      have hsp : ¬ sp f := hc _ List.mem_cons_self f rfl
      obtain ⟨G, hG, -⟩ := L.rel f f _ F (L.self f hsp) hF
      exact ⟨.direct (by rw [hG]; rfl) hp (ih _ (.func (L.self f hsp) (by simp [Meets])
        fun v hv => hc v (List.mem_cons_of_mem _ hv))).1, hclean⟩
    | @call _ _ _ _ g bd _ _ hK hne hm hc =>
      obtain ⟨G, hG, -⟩ := L.rel f g bd F hK hF
      exact ⟨.direct (by rw [hG]; rfl) hp (ih _ (.func hK hm hc)).1, hclean⟩
  | @plain d k data vs m r hk hd _ ih =>
    intro job' hj
    cases hj with
    | @exec _ _ _ y _ _ hsd hc =>
      obtain ⟨h1, h2⟩ := ih _ (.prog (L.ops k data vs m hc))
      rw [hsd] at h1
      refine ⟨.plain hk ?_ h1, h2⟩
      unfold directCallee at hd ⊢
      split at hd
      · rename_i f _ _
        cases hA : tabA f with
        | none => simp [L.same f (hc _ List.mem_cons_self f rfl) hA]
        | some F => simp [hA] at hd
      · rfl
    | @call _ _ _ f g bd _ _ hK hne hm hc =>
      obtain ⟨F, hF⟩ := L.have_ f g bd hK hne
      simp [directCallee, hF] at hd
  | @save d F st b j m blk op reg r hb ho hk hr _ ih =>
    intro job' hj
    cases hj with
    | code hF hs =>
      obtain ⟨blk', hb', hB⟩ := block_rel hF hb
      obtain ⟨op', ho', hO⟩ := op_rel hB ho
      obtain ⟨h1, h2⟩ := ih _ (.code hF (set_rel hs reg _))
      exact ⟨.save hb' ho' (hO.same.1 ▸ hk) (hO.same.2 ▸ hr) h1, h2⟩
  | @restore d F st b j m blk op o n r hb ho hk hop hv _ ih =>
    intro job' hj
    cases hj with
    | code hF hs =>
      obtain ⟨blk', hb', hB⟩ := block_rel hF hb
      obtain ⟨op', ho', hO⟩ := op_rel hB ho
      obtain ⟨h1, h2⟩ := ih _ (.code hF hs)
      cases hO with
      | plain _ hos hcl =>
        simp only at hop
        subst hop
        cases hos with
        | cons hoo ht =>
          cases ht
          exact ⟨.restore hb' ho' hk rfl (by rw [← view_rel hs hoo]; exact hv) h1, h2⟩
      | call => exact absurd hk (by simp)
  | @depthOk d F st b j m blk op r hb ho hk hd _ ih =>
    intro job' hj
    cases hj with
    | code hF hs =>
      obtain ⟨blk', hb', hB⟩ := block_rel hF hb
      obtain ⟨op', ho', hO⟩ := op_rel hB ho
      obtain ⟨h1, h2⟩ := ih _ (.code hF hs)
      exact ⟨.depthOk hb' ho' (hO.same.1 ▸ hk) hd h1, h2⟩
  | @depthStop d F st b j m blk op hb ho hk hd =>
    intro job' hj
    cases hj with
    | code hF hs =>
      obtain ⟨blk', hb', hB⟩ := block_rel hF hb
      obtain ⟨op', ho', hO⟩ := op_rel hB ho
      exact ⟨.depthStop hb' ho' (hO.same.1 ▸ hk) hd, trivial⟩
  | @opOk d F st b j m blk op vs backs res m' r hb ho hv hx _ ih1 ih2 =>
    intro job' hj
    cases hj with
    | code hF hs =>
      obtain ⟨blk', hb', hB⟩ := block_rel hF hb
      obtain ⟨op', ho', hO⟩ := op_rel hB ho
      obtain ⟨vs', hv', hjr⟩ := exec_rel hs hO hv d m
      obtain ⟨r1, c1⟩ := ih1 _ hjr
      obtain ⟨he, hg⟩ := after_rel hs hO (backs := backs) c1
      obtain ⟨r2, c2⟩ := ih2 _ (.code hF hg)
      rw [he] at r2
      exact ⟨.opOk hb' ho' hv' r1 r2, c2⟩
  | @opPoison d F st b j m blk op vs e w hb ho hv hx ih1 =>
    intro job' hj
    cases hj with
    | code hF hs =>
      obtain ⟨blk', hb', hB⟩ := block_rel hF hb
      obtain ⟨op', ho', hO⟩ := op_rel hB ho
      obtain ⟨vs', hv', hjr⟩ := exec_rel hs hO hv d m
      exact ⟨.opPoison hb' ho' hv' (ih1 _ hjr).1, trivial⟩
  | @opDeep d F st b j m blk op vs hb ho hv hx ih1 =>
    intro job' hj
    cases hj with
    | code hF hs =>
      obtain ⟨blk', hb', hB⟩ := block_rel hF hb
      obtain ⟨op', ho', hO⟩ := op_rel hB ho
      obtain ⟨vs', hv', hjr⟩ := exec_rel hs hO hv d m
      exact ⟨.opDeep hb' ho' hv' (ih1 _ hjr).1, trivial⟩
  | @goto d F st b m blk t r hb ht _ ih =>
    intro job' hj
    cases hj with
    | code hF hs =>
      obtain ⟨blk', hb', hB⟩ := block_rel hF hb
      have hT := hB.2
      rw [ht] at hT
      generalize hy : blk'.term = t' at hT
      cases hT
      obtain ⟨h1, h2⟩ := ih _ (.code hF hs)
      rw [hB.1.length_eq]
      exact ⟨.goto hb' hy h1, h2⟩
  | @condBr d F st b m blk c x y v t r hb ht hv htest _ ih =>
    intro job' hj
    cases hj with
    | code hF hs =>
      obtain ⟨blk', hb', hB⟩ := block_rel hF hb
      have hT := hB.2
      rw [ht] at hT
      generalize hy : blk'.term = t' at hT
      cases hT with
      | condBr hc =>
        obtain ⟨h1, h2⟩ := ih _ (.code hF hs)
        rw [hB.1.length_eq]
        exact ⟨.condBr hb' hy (by rw [← view_rel hs hc]; exact hv) htest h1, h2⟩
  | @invokeOk d F st b m blk op n e vs backs res m' r hb ht hv hx _ ih1 ih2 =>
    intro job' hj
    cases hj with
    | code hF hs =>
      obtain ⟨blk', hb', hB⟩ := block_rel hF hb
      have hT := hB.2
      rw [ht] at hT
      generalize hy : blk'.term = t' at hT
      cases hT with
      | invoke hO =>
        obtain ⟨vs', hv', hjr⟩ := exec_rel hs hO hv d m
        obtain ⟨r1, c1⟩ := ih1 _ hjr
        obtain ⟨he, hg⟩ := after_rel hs hO (backs := backs) c1
        obtain ⟨r2, c2⟩ := ih2 _ (.code hF hg)
        rw [he] at r2
        rw [hB.1.length_eq]
        exact ⟨.invokeOk hb' hy hv' r1 r2, c2⟩
  | @invokeFail d F st b m blk op n e vs backs err m' st1 r hb ht hv hx hfail _ ih1 ih2 =>
    intro job' hj
    cases hj with
    | code hF hs =>
      obtain ⟨blk', hb', hB⟩ := block_rel hF hb
      have hT := hB.2
      rw [ht] at hT
      generalize hy : blk'.term = t' at hT
      cases hT with
      | invoke hO =>
        obtain ⟨vs', hv', hjr⟩ := exec_rel hs hO hv d m
        obtain ⟨r1, c1⟩ := ih1 _ hjr
        obtain ⟨he, hg⟩ := after_rel hs hO (backs := backs) (res := none) (by simp)
        obtain ⟨r2, c2⟩ := ih2 _ (.code hF (fail_rel hg hfail))
        rw [he] at hfail
        rw [hB.1.length_eq]
        exact ⟨.invokeFail hb' hy hv' r1 hfail r2, c2⟩
  | @invokePoison d F st b m blk op n e vs err w hb ht hv hx ih1 =>
    intro job' hj
    cases hj with
    | code hF hs =>
      obtain ⟨blk', hb', hB⟩ := block_rel hF hb
      have hT := hB.2
      rw [ht] at hT
      generalize hy : blk'.term = t' at hT
      cases hT with
      | invoke hO =>
        obtain ⟨vs', hv', hjr⟩ := exec_rel hs hO hv d m
        rw [hB.1.length_eq]
        exact ⟨.invokePoison hb' hy hv' (ih1 _ hjr).1, trivial⟩
  | @invokeDeep d F st b m blk op n e vs hb ht hv hx ih1 =>
    intro job' hj
    cases hj with
    | code hF hs =>
      obtain ⟨blk', hb', hB⟩ := block_rel hF hb
      have hT := hB.2
      rw [ht] at hT
      generalize hy : blk'.term = t' at hT
      cases hT with
      | invoke hO =>
        obtain ⟨vs', hv', hjr⟩ := exec_rel hs hO hv d m
        rw [hB.1.length_eq]
        exact ⟨.invokeDeep hb' hy hv' (ih1 _ hjr).1, trivial⟩
  | @ret d F st b m blk hb ht hp h2 =>
    intro job' hj
    cases hj with
    | code hF hs =>
      obtain ⟨blk', hb', hB⟩ := block_rel hF hb
      have hT := hB.2
      rw [ht] at hT
      generalize hy : blk'.term = t' at hT
      cases hT
      rw [hB.1.length_eq]
      exact ⟨.ret hb' hy hp h2, trivial⟩
  | @propagate d F st b m blk e hb ht hp h2 =>
    intro job' hj
    cases hj with
    | code hF hs =>
      obtain ⟨blk', hb', hB⟩ := block_rel hF hb
      have hT := hB.2
      rw [ht] at hT
      generalize hy : blk'.term = t' at hT
      cases hT
      rw [hB.1.length_eq]
      exact ⟨.propagate hb' hy hp h2, trivial⟩
  | @failure d F st b m blk e e' hb ht hp h2 =>
    intro job' hj
    cases hj with
    | code hF hs =>
      obtain ⟨blk', hb', hB⟩ := block_rel hF hb
      have hT := hB.2
      rw [ht] at hT
      generalize hy : blk'.term = t' at hT
      cases hT
      rw [hB.1.length_eq]
      exact ⟨.failure hb' hy hp h2, trivial⟩


/-! ## The other direction -/

theorem OperRel.symm {bd : Binding} {o o' : Operand} (h : OperRel bd o o') : OperRel bd o' o := by
  cases h with
  | same => exact .same _
  | bind h => exact .unbind h
  | unbind h => exact .bind h

theorem operRels_symm {bd : Binding} {os os' : List Operand} (h : List.Forall₂ (OperRel bd) os os') :
    List.Forall₂ (OperRel bd) os' os := by
  induction h with
  | nil => exact .nil
  | cons h _ ih => exact .cons h.symm ih

theorem OperRel.clean {sp : Nat → Prop} {bd : Binding} {o o' : Operand} (h : OperRel bd o o')
    (hc : CleanOperand sp o) : CleanOperand sp o' := by
  cases h with
  | same => exact hc
  | bind h => exact fun f hf => by cases hf
  | unbind h => exact fun f hf => by cases hf

theorem clean_rel {sp : Nat → Prop} {bd : Binding} {os os' : List Operand}
    (h : List.Forall₂ (OperRel bd) os os') (hc : ∀ o ∈ os, CleanOperand sp o) :
    ∀ o ∈ os', CleanOperand sp o := by
  induction h with
  | nil => simp
  | cons h _ ih =>
    intro o ho
    rcases List.mem_cons.1 ho with rfl | ho
    · exact h.clean (hc _ List.mem_cons_self)
    · exact ih (fun o ho => hc o (List.mem_cons_of_mem _ ho)) o ho

theorem OperRel.fixed {bd : Binding} {o o' : Operand} {c : Nat} (h : OperRel bd o o')
    (hf : Fixed bd c o) : Fixed bd c o' := by
  cases h with
  | same => exact hf
  | bind h =>
    rcases hf with hf | ⟨q, hf, hq⟩
    · cases hf
    · cases hf; rw [h] at hq; cases hq; exact .inl rfl
  | @unbind q c' h =>
    rcases hf with hf | ⟨q, hf, hq⟩
    · cases hf; exact .inr ⟨_, rfl, h⟩
    · cases hf

theorem OpRel.symm {sem : Sem P V C W E} {sp : Nat → Prop} {K : Nat → Nat → Binding → Prop}
    {bd : Binding} {op op' : Op} (h : OpRel sem sp K bd op op') :
    OpRel sem sp (fun g f bd => K f g bd) bd op' op := by
  cases h with
  | plain hd ho hc => exact .plain (fun vs m => (hd vs m).symm) (operRels_symm ho) (clean_rel ho hc)
  | @call x y f g bd' xs ys res hK hne ho hc hfix =>
    refine .call hK hne.symm (operRels_symm ho) (clean_rel ho hc) fun p c hpc => ?_
    obtain ⟨o, ho1, ho2⟩ := hfix p c hpc
    obtain ⟨hlt, hx⟩ := List.getElem?_eq_some_iff.1 ho1
    have hlt' : p < ys.length := by rw [← ho.length_eq]; exact hlt
    refine ⟨ys[p], List.getElem?_eq_getElem hlt', OperRel.fixed ?_ ho2⟩
    rw [← hx]
    exact List.Forall₂.get ho hlt hlt'

theorem TermRel.symm {sem : Sem P V C W E} {sp : Nat → Prop} {K : Nat → Nat → Binding → Prop}
    {bd : Binding} {t t' : Term} (h : TermRel sem sp K bd t t') :
    TermRel sem sp (fun g f bd => K f g bd) bd t' t := by
  cases h with
  | goto t => exact .goto t
  | condBr h => exact .condBr h.symm
  | invoke h => exact .invoke h.symm
  | ret => exact .ret
  | propagate => exact .propagate
  | failure => exact .failure
  | yield h => exact .yield h.symm

theorem forall₂_symm {α β : Type} {R : α → β → Prop} {S : β → α → Prop} (hRS : ∀ a b, R a b → S b a)
    {l : List α} {k : List β} (h : List.Forall₂ R l k) : List.Forall₂ S k l := by
  induction h with
  | nil => exact .nil
  | cons h _ ih => exact .cons (hRS _ _ h) ih

theorem FnRel.symm {sem : Sem P V C W E} {sp : Nat → Prop} {K : Nat → Nat → Binding → Prop}
    {bd : Binding} {F G : Fn} (h : FnRel sem sp K bd F G) :
    FnRel sem sp (fun g f bd => K f g bd) bd G F :=
  ⟨h.1.symm, forall₂_symm (fun _ _ hb => ⟨forall₂_symm (fun _ _ ho => ho.symm) hb.1, hb.2.symm⟩) h.2⟩

theorem Link.symm {sem : Sem P V C W E} {sp : Nat → Prop} {K : Nat → Nat → Binding → Prop}
    {tabA tabB : Nat → Option Fn} (L : Link sem sp K tabA tabB) :
    Link sem sp (fun g f bd => K f g bd) tabB tabA where
  self := L.self
  own := L.own
  have_ := by
    intro g f bd hK hne
    obtain ⟨F, hF⟩ := L.have_ f g bd hK (Ne.symm hne)
    obtain ⟨G, hG, -⟩ := L.rel f g bd F hK hF
    exact ⟨G, hG⟩
  same := by
    intro f hf hB
    cases hA : tabA f with
    | none => rfl
    | some F =>
      obtain ⟨G, hG, -⟩ := L.rel f f _ F (L.self f hf) hA
      rw [hB] at hG
      cases hG
  rel := by
    intro g f bd G hK hG
    have hF : ∃ F, tabA f = some F := by
      by_cases hfg : f = g
      · subst hfg
        cases hA : tabA f with
        | none => rw [L.same f (L.own f bd hK) hA] at hG; cases hG
        | some F => exact ⟨F, rfl⟩
      · exact L.have_ f g bd hK hfg
    obtain ⟨F, hF⟩ := hF
    obtain ⟨G', hG', hr⟩ := L.rel f g bd F hK hF
    rw [hG] at hG'
    cases hG'
    exact ⟨F, hF, hr.symm⟩
  ops := L.ops

/-! ## The pass makes such a program -/

/-- The operation occurs in the body. -/
def Contains (F : Fn) (op : Op) : Prop :=
  ∃ blk ∈ F.blocks, op ∈ blk.ops ∨ ∃ n e, blk.term = .invoke op n e

/-- The function keeps its calls, or they are specialized. -/
def Sites (env : Env) (choose : Nat → Nat → List Nat → Option Nat) (F G : Fn) : Prop :=
  G = F ∨ callSites env choose F = some G

/-- A program `tabA` and what the pass makes of it. `keys g k` says that `g` is a specialization for
`k`, `sp` that a function is one. -/
structure Pass (env : Env) (choose : Nat → Nat → List Nat → Option Nat) (sp : Nat → Prop)
    (keys : Nat → Key → Prop) (tabA : Nat → Option Body) (tabB : Nat → Option Fn) : Prop where
  spec_of : ∀ g k, keys g k → sp g
  chosen : ∀ f data ds g, choose f data ds = some g → ∃ k, keys g k ∧ k.orig = f ∧ k.dicts = ds
  outside : ∀ f, ¬ sp f → tabA f = none → tabB f = none
  plain : ∀ f b, ¬ sp f → tabA f = some b → ∃ G, tabB f = some G ∧ Sites env choose b.fn G
  spec : ∀ g k, keys g k → ∃ b S G, tabA k.orig = some b ∧ specialize env k g b = some S ∧
    Sites env choose S G ∧ tabB g = some G

/-- What the pass may expect of the program. -/
structure Formed (sem : Sem P V C W E) (env : Env) (sp : Nat → Prop) (keys : Nat → Key → Prop)
    (tabA : Nat → Option Body) : Prop where
  fresh : ∀ f b, tabA f = some b → ¬ sp f
  clean : ∀ f b op, tabA f = some b → Contains b.fn op → ∀ o ∈ op.operands, ∀ h, o = .fn h → ¬ sp h
  first : ∀ g k b, keys g k → tabA k.orig = some b →
    ∃ n m, b.dict = List.replicate n true ++ List.replicate m false
  types : ∀ g k b op, keys g k → tabA k.orig = some b → Contains b.fn op →
    ∀ vs m, sem.op op.kind (k.subst op.data) vs m = sem.op op.kind op.data vs m
  recursion : ∀ g k b op xs, keys g k → tabA k.orig = some b → Contains b.fn op → op.kind = .call →
    env.recorded (k.subst op.data) = false → op.operands = .fn k.orig :: xs →
    ∀ p, p < k.dicts.length → xs[p]? = some (.param p)
  ops : ∀ k data vs m, (∀ v ∈ vs, CleanView sp v) → CleanProg sp (sem.op k data vs m)

/-- Which functions correspond. -/
def Corr (sp : Nat → Prop) (keys : Nat → Key → Prop) (f g : Nat) (bd : Binding) : Prop :=
  (f = g ∧ ¬ sp f ∧ bd = fun _ => none) ∨ ∃ k, keys g k ∧ k.orig = f ∧ bd = fun p => k.dicts[p]?

theorem boundTo_first (n m : Nat) (cs : List Nat)
    (h : (List.replicate n true ++ List.replicate m false).count true = cs.length) :
    boundTo (List.replicate n true ++ List.replicate m false) cs = fun p => cs[p]? := by
  have hn : n = cs.length := by
    rw [← h]
    simp [List.count_replicate]
  subst hn
  clear h
  funext p
  induction cs generalizing p with
  | nil =>
    simp only [List.length_nil, List.replicate_zero, List.nil_append, List.getElem?_nil]
    induction m generalizing p with
    | zero => rfl
    | succ m ih =>
      cases p with
      | zero => rfl
      | succ p => exact ih p
  | cons c cs ih =>
    cases p with
    | zero => rfl
    | succ p => exact ih p

theorem bound_some : ∀ (l : List Bool) (cs : List Nat) (p : Nat), l.count true = cs.length →
    l[p]? = some true → ∃ c, boundTo l cs p = some c
  | [], _, _, _, h => by simp at h
  | true :: _, [], _, hc, _ => by simp at hc
  | true :: _, c :: _, 0, _, _ => ⟨c, rfl⟩
  | true :: t, _ :: cs, p + 1, hc, h => bound_some t cs p (by simpa using hc) (by simpa using h)
  | false :: _, _, 0, _, h => by simp at h
  | false :: t, cs, p + 1, hc, h => by
    simpa only [boundTo] using bound_some t cs p (by simpa using hc) (by simpa using h)

theorem bindOperand_rel (bd : Binding) (o : Operand) : OperRel bd o (bindOperand bd o) := by
  cases o with
  | param p =>
    simp only [bindOperand]
    cases h : bd p with
    | none => exact .same _
    | some c => exact .bind h
  | _ => exact .same _

theorem bindOperands_rel (bd : Binding) (os : List Operand) :
    List.Forall₂ (OperRel bd) os (os.map (bindOperand bd)) := by
  induction os with
  | nil => exact .nil
  | cons o t ih => exact .cons (bindOperand_rel bd o) ih

theorem constants_at {env : Env} {os : List Operand} {ds : List Nat} (h : constants env os = some ds)
    {p c : Nat} (hc : ds[p]? = some c) : os[p]? = some (.const c) := by
  have hlen : p < os.length := by
    have := (List.getElem?_eq_some_iff.1 hc).1
    have hl : ds.length = os.length := by
      clear hc this
      unfold constants at h
      induction os generalizing ds with
      | nil => simp at h; subst h; rfl
      | cons a t ih =>
        simp only [List.mapM_cons, Option.bind_eq_bind, Option.bind_eq_some_iff, Option.pure_def,
          Option.some.injEq] at h
        obtain ⟨b, -, k', hk, rfl⟩ := h
        simp [ih hk]
    omega
  have h0 : os[p]? = some os[p] := List.getElem?_eq_getElem hlen
  have h1 := mapM_at h h0
  rw [hc] at h1
  rw [h0]
  cases ho : os[p] with
  | const c' =>
    rw [ho] at h1
    simp only [] at h1
    split at h1
    · cases h1; rfl
    · cases h1
  | _ => rw [ho] at h1; cases h1

/-- The rewriting of a call site keeps what the operation does. -/
theorem rewrite_rel {sem : Sem P V C W E} {env : Env} {choose : Nat → Nat → List Nat → Option Nat}
    {sp : Nat → Prop} {keys : Nat → Key → Prop} {tabA : Nat → Option Body} {tabB : Nat → Option Fn}
    (hp : Pass env choose sp keys tabA tabB) (hnew : ∀ f b, tabA f = some b → ¬ sp f)
    {bd : Binding} {op op1 op2 : Op}
    (hk : op1.kind = op.kind) (hres : op1.result = op.result) (hd : SameData sem op.kind op.data op1.data)
    (ho : List.Forall₂ (OperRel bd) op.operands op1.operands)
    (hc : ∀ o ∈ op.operands, CleanOperand sp o)
    (h : op2 = op1 ∨ rewriteOp env choose op1 = some op2) :
    OpRel sem sp (Corr sp keys) bd op op2 := by
  obtain ⟨k0, x0, os0, r0⟩ := op
  obtain ⟨k1, x1, os1, r1⟩ := op1
  simp only at hk hres hd ho hc
  subst hk hres
  have hself : OpRel sem sp (Corr sp keys) bd ⟨k1, x0, os0, r1⟩ ⟨k1, x1, os1, r1⟩ := .plain hd ho hc
  rcases h with rfl | h
  · exact hself
  simp only [rewriteOp, Option.map_eq_some_iff] at h
  obtain ⟨og, h1, rfl⟩ := h
  cases og with
  | none => exact hself
  | some g =>
    unfold specializationFor at h1
    simp only [] at h1
    split at h1
    · cases h1
    · rename_i hcall
      have hkc : k1 = .call := by
        by_contra hne
        exact hcall (.inl hne)
      subst hkc
      cases ho with
      | nil => cases h1
      | @cons o o' t t' hoo hot =>
        cases o' with
        | fn f =>
          simp only [] at h1
          split at h1
          · cases h1
          · split at h1
            · cases h1
            · cases hcs : constants env ((List.take ((Operand.fn f :: t').length - (env.visible x1 + 1))
                (Operand.fn f :: t')).drop 1) with
              | none => rw [hcs] at h1; cases h1
              | some ds =>
                rw [hcs] at h1
                simp only [Option.some.injEq] at h1
                obtain ⟨k, hkey, hf, hds⟩ := hp.chosen f x1 ds g h1
                obtain ⟨b, -, -, hb, -, -, -⟩ := hp.spec g k hkey
                cases hoo
                refine .call (bd' := fun p => k.dicts[p]?) (.inr ⟨k, hkey, hf, rfl⟩) ?_ hot
                  (fun o ho => hc o (List.mem_cons_of_mem _ ho)) ?_
                · rintro rfl
                  exact hnew _ b hb (hf ▸ hp.spec_of _ k hkey)
                · intro p c hpc
                  rw [hds] at hpc
                  have hx := constants_at hcs hpc
                  rw [List.getElem?_drop, List.getElem?_take] at hx
                  split at hx
                  · rw [Nat.add_comm, List.getElem?_cons_succ] at hx
                    obtain ⟨hlt', hy⟩ := List.getElem?_eq_some_iff.1 hx
                    have hlt : p < t.length := by rw [hot.length_eq]; exact hlt'
                    refine ⟨t[p], List.getElem?_eq_getElem hlt, ?_⟩
                    have := (List.Forall₂.get hot hlt hlt').symm
                    refine OperRel.fixed (o := t'[p]) this (.inl hy)
                  · cases hx
        | _ => cases h1

/-- Functions and the same with operations changed. -/
inductive TermMap (R : Op → Op → Prop) : Term → Term → Prop
  | invoke {op op' n e} : R op op' → TermMap R (.invoke op n e) (.invoke op' n e)
  | keep {t} : (∀ op n e, t ≠ .invoke op n e) → TermMap R t t

/-- Blocks. -/
def BlockMap (R : Op → Op → Prop) (x y : Block) : Prop :=
  List.Forall₂ R x.ops y.ops ∧ TermMap R x.term y.term

theorem mapM_forall₂ {α β : Type} {f : α → Option β} {l : List α} {k : List β}
    (h : l.mapM f = some k) : List.Forall₂ (fun a b => f a = some b) l k := by
  induction l generalizing k with
  | nil => simp at h; subst h; exact .nil
  | cons a t ih =>
    simp only [List.mapM_cons, Option.bind_eq_bind, Option.bind_eq_some_iff, Option.pure_def,
      Option.some.injEq] at h
    obtain ⟨b, hb, k', hk, rfl⟩ := h
    exact .cons hb (ih hk)

theorem mapOps_map {f : Op → Option Op} {F G : Fn} (h : mapOps f F = some G) :
    F.params = G.params ∧ List.Forall₂ (BlockMap fun a b => f a = some b) F.blocks G.blocks := by
  unfold mapOps at h
  obtain ⟨bs, hbs, rfl⟩ := Option.map_eq_some_iff.1 h
  refine ⟨rfl, (mapM_forall₂ hbs).imp fun x y hxy => ?_⟩
  obtain ⟨ops, ho, hy⟩ := Option.bind_eq_some_iff.1 hxy
  obtain ⟨t, ht, rfl⟩ := Option.map_eq_some_iff.1 hy
  refine ⟨mapM_forall₂ ho, ?_⟩
  cases hx : x.term with
  | invoke op n e =>
    rw [hx] at ht
    obtain ⟨op', ho', rfl⟩ := Option.map_eq_some_iff.1 ht
    exact .invoke ho'
  | _ =>
    rw [hx] at ht
    cases ht
    exact .keep (by simp)

theorem contains_map {f : Op → Option Op} {F G : Fn} (h : mapOps f F = some G) {op' : Op}
    (ho : Contains G op') : ∃ op, Contains F op ∧ f op = some op' := by
  obtain ⟨-, h2⟩ := mapOps_map h
  obtain ⟨z, hz, hin⟩ := ho
  obtain ⟨i, hi, rfl⟩ := List.mem_iff_getElem.1 hz
  have hi' : i < F.blocks.length := by rw [h2.length_eq]; exact hi
  obtain ⟨h3, h4⟩ := List.Forall₂.get h2 hi' hi
  simp only [List.get_eq_getElem] at h3 h4
  rcases hin with hin | ⟨n, e, ht⟩
  · obtain ⟨j, hj, rfl⟩ := List.mem_iff_getElem.1 hin
    have hj' : j < F.blocks[i].ops.length := by rw [h3.length_eq]; exact hj
    exact ⟨_, ⟨_, List.getElem_mem hi', .inl (List.getElem_mem hj')⟩, List.Forall₂.get h3 hj' hj⟩
  · rw [ht] at h4
    cases htx : F.blocks[i].term with
    | invoke op n' e' =>
      rw [htx] at h4
      cases h4 with
      | invoke hr => exact ⟨op, ⟨_, List.getElem_mem hi', .inr ⟨_, _, htx⟩⟩, hr⟩
      | keep hn => exact absurd rfl (hn _ _ _)
    | _ => rw [htx] at h4; cases h4

theorem forall₂_refl {α : Type} {R : α → α → Prop} (h : ∀ a, R a a) (l : List α) : List.Forall₂ R l l := by
  induction l with
  | nil => exact .nil
  | cons a t ih => exact .cons (h a) ih

theorem forall₂_comp {α β γ : Type} {R : α → β → Prop} {S : β → γ → Prop} {T : α → γ → Prop}
    (h : ∀ a b c, R a b → S b c → T a c) {l : List α} {k : List β} {m : List γ}
    (h1 : List.Forall₂ R l k) (h2 : List.Forall₂ S k m) : List.Forall₂ T l m := by
  induction h1 generalizing m with
  | nil => cases h2; exact .nil
  | cons ha _ ih =>
    cases h2 with
    | cons hb hm => exact .cons (h _ _ _ ha hb) (ih hm)

theorem blockMap_comp {R S : Op → Op → Prop} {x y z : Block} (h1 : BlockMap R x y)
    (h2 : BlockMap S y z) : BlockMap (fun a c => ∃ b, R a b ∧ S b c) x z := by
  refine ⟨forall₂_comp (fun a b c ha hb => ⟨b, ha, hb⟩) h1.1 h2.1, ?_⟩
  have ht := h1.2
  have hu := h2.2
  generalize x.term = tx at *
  generalize y.term = ty at *
  generalize z.term = tz at *
  cases ht with
  | invoke hr =>
    cases hu with
    | invoke hs => exact .invoke ⟨_, hr, hs⟩
    | keep hn => exact absurd rfl (hn _ _ _)
  | keep hn =>
    cases hu with
    | invoke hs => exact absurd rfl (hn _ _ _)
    | keep => exact .keep hn

theorem sites_map {env : Env} {choose : Nat → Nat → List Nat → Option Nat} {F G : Fn}
    (h : Sites env choose F G) : F.params = G.params ∧
      List.Forall₂ (BlockMap fun a b => b = a ∨ rewriteOp env choose a = some b) F.blocks G.blocks := by
  rcases h with rfl | h
  · refine ⟨rfl, forall₂_refl (fun x => ⟨forall₂_refl (fun _ => .inl rfl) _, ?_⟩) _⟩
    cases x.term with
    | invoke => exact .invoke (.inl rfl)
    | _ => exact .keep (by simp)
  · obtain ⟨h1, h2⟩ := mapOps_map h
    refine ⟨h1, h2.imp fun x y hb => ⟨hb.1.imp fun _ _ => .inr, ?_⟩⟩
    have ht := hb.2
    generalize x.term = tx at ht
    generalize y.term = ty at ht
    cases ht with
    | invoke h => exact .invoke (.inr h)
    | keep h => exact .keep h

theorem block_bound {sem : Sem P V C W E} {sp : Nat → Prop} {K : Nat → Nat → Binding → Prop}
    {bd : Binding} {σ : Nat → Nat} {R : Op → Op → Prop} {x z : Block}
    (hR : ∀ op, (op ∈ x.ops ∨ ∃ n e, x.term = .invoke op n e) → ∀ op', R (bindOp σ bd op) op' →
      OpRel sem sp K bd op op')
    (h : BlockMap R ⟨x.ops.map (bindOp σ bd), bindTerm σ bd x.term⟩ z) : BlockRel sem sp K bd x z := by
  constructor
  · have h1 := h.1
    simp only [List.forall₂_map_left_iff] at h1
    have hmem : ∀ op ∈ x.ops, ∀ op', R (bindOp σ bd op) op' → OpRel sem sp K bd op op' :=
      fun op ho => hR op (.inl ho)
    generalize x.ops = l at h1 hmem
    generalize z.ops = k at h1
    clear h hR
    induction h1 with
    | nil => exact .nil
    | cons ha _ ih =>
      exact .cons (hmem _ List.mem_cons_self _ ha) (ih fun op ho => hmem op (List.mem_cons_of_mem _ ho))
  · have h2 := h.2
    simp only [] at h2
    have hR' : ∀ op n e, x.term = .invoke op n e → ∀ op', R (bindOp σ bd op) op' →
      OpRel sem sp K bd op op' := fun op n e ht => hR op (.inr ⟨n, e, ht⟩)
    generalize x.term = tx at h2 hR'
    generalize z.term = tz at h2
    cases tx with
    | goto => cases h2; exact .goto _
    | condBr => cases h2; exact .condBr (bindOperand_rel _ _)
    | invoke op n e =>
      simp only [bindTerm] at h2
      cases h2 with
      | invoke hr => exact .invoke (hR' _ _ _ rfl _ hr)
      | keep hn => exact absurd rfl (hn _ _ _)
    | ret => cases h2; exact .ret
    | propagate => cases h2; exact .propagate
    | failure => cases h2; exact .failure
    | «yield» => cases h2; exact .yield (bindOperand_rel _ _)

theorem bindOp_none (op : Op) : bindOp id (fun _ => none) op = op := by
  have h : bindOperand (fun _ => none) = id := by
    funext o
    cases o <;> rfl
  simp [bindOp, h]

theorem bindTerm_none (t : Term) : bindTerm id (fun _ => none) t = t := by
  have h : ∀ o, bindOperand (fun _ => none) o = o := by
    intro o
    cases o <;> rfl
  cases t <;> simp [bindTerm, bindOp_none, h]

theorem forall₂_mem {α β : Type} {R S : α → β → Prop} {l : List α} {k : List β}
    (h : List.Forall₂ R l k) (hi : ∀ a ∈ l, ∀ b, R a b → S a b) : List.Forall₂ S l k := by
  induction h with
  | nil => exact .nil
  | cons ha _ ih =>
    exact .cons (hi _ List.mem_cons_self _ ha) (ih fun a hm => hi a (List.mem_cons_of_mem _ hm))

theorem plain_fn {sem : Sem P V C W E} {env : Env} {choose : Nat → Nat → List Nat → Option Nat}
    {sp : Nat → Prop} {keys : Nat → Key → Prop} {tabA : Nat → Option Body} {tabB : Nat → Option Fn}
    (hp : Pass env choose sp keys tabA tabB) (hf : Formed sem env sp keys tabA) {f : Nat} {b : Body}
    (hb : tabA f = some b) {G : Fn} (hs : Sites env choose b.fn G) :
    FnRel sem sp (Corr sp keys) (fun _ => none) b.fn G := by
  obtain ⟨h1, h2⟩ := sites_map hs
  refine ⟨h1, forall₂_mem h2 fun x hx z hz => ?_⟩
  refine block_bound (σ := id) (R := fun a b => b = a ∨ rewriteOp env choose a = some b) ?_ ?_
  · intro op ho op' hr
    rw [bindOp_none] at hr
    exact rewrite_rel hp hf.fresh rfl rfl (fun _ _ => rfl) (forall₂_refl (fun o => .same o) _)
      (fun o hm h he => hf.clean f b op hb ⟨x, hx, ho⟩ o hm h he) hr
  · simpa only [show bindOp id (fun _ => none) = id from funext bindOp_none, bindTerm_none,
      List.map_id] using hz

theorem spec_fn {sem : Sem P V C W E} {env : Env} {choose : Nat → Nat → List Nat → Option Nat}
    {sp : Nat → Prop} {keys : Nat → Key → Prop} {tabA : Nat → Option Body} {tabB : Nat → Option Fn}
    (hp : Pass env choose sp keys tabA tabB) (hf : Formed sem env sp keys tabA) {g : Nat} {k : Key}
    (hk : keys g k) {b : Body} (hb : tabA k.orig = some b) {S G : Fn}
    (hS : specialize env k g b = some S) (hs : Sites env choose S G) :
    FnRel sem sp (Corr sp keys) (fun p => k.dicts[p]?) b.fn G := by
  obtain ⟨D, hD, hm⟩ := Option.bind_eq_some_iff.1 hS
  unfold bindDictionaries at hD
  split at hD
  · cases hD
  rename_i hcount
  obtain ⟨n, m, hdict⟩ := hf.first g k b hk hb
  have hbd : boundTo b.dict k.dicts = fun p => k.dicts[p]? := by
    rw [hdict] at hcount ⊢
    exact boundTo_first n m _ (by simpa using hcount)
  rw [hbd] at hD
  simp only [Option.some.injEq] at hD
  subst hD
  obtain ⟨hm1, hm2⟩ := mapOps_map hm
  obtain ⟨hs1, hs2⟩ := sites_map hs
  simp only [] at hm1 hm2
  rw [List.forall₂_map_left_iff] at hm2
  have hall := forall₂_comp (T := fun x z => BlockMap (fun a c => ∃ a', redirectOp env k.orig g a = some a' ∧
    (c = a' ∨ rewriteOp env choose a' = some c)) ⟨x.ops.map (bindOp k.subst fun p => k.dicts[p]?),
      bindTerm k.subst (fun p => k.dicts[p]?) x.term⟩ z) (fun _ _ _ h1 h2 => blockMap_comp h1 h2) hm2 hs2
  refine ⟨hm1.trans hs1, forall₂_mem hall fun x hx z hz => ?_⟩
  refine block_bound (σ := k.subst) ?_ hz
  rintro op ho op2 ⟨op1, hr, hw⟩
  have hin : Contains b.fn op := ⟨x, hx, ho⟩
  have hcl : ∀ o ∈ op.operands, CleanOperand sp o := fun o hm h he => hf.clean _ b op hb hin o hm h he
  have hkeep : op1 = bindOp k.subst (fun p => k.dicts[p]?) op →
      OpRel sem sp (Corr sp keys) (fun p => k.dicts[p]?) op op2 := by
    rintro rfl
    exact rewrite_rel (op1 := bindOp k.subst (fun p => k.dicts[p]?) op) hp hf.fresh rfl rfl (fun vs m => (hf.types g k b op hk hb hin vs m).symm)
      (bindOperands_rel _ _) hcl hw
  unfold redirectOp at hr
  split at hr
  · rename_i hcond
    split at hr
    · cases hr
    · rename_i o t hos
      split at hr
      · rename_i ho'
        subst ho'
        simp only [Option.some.injEq] at hr
        subst hr
        have hop2 : op2 = { bindOp k.subst (fun p => k.dicts[p]?) op with operands := .fn g :: t } := by
          rcases hw with hw | hw
          · exact hw
          · simp only [rewriteOp, specializationFor] at hw
            rw [if_pos (.inr hcond.2)] at hw
            simpa using hw.symm
        subst hop2
        obtain ⟨k0, x0, os0, r0⟩ := op
        simp only [bindOp] at hcond hos
        obtain ⟨hk0, hrec⟩ := hcond
        subst hk0
        cases os0 with
        | nil => cases hos
        | cons o0 t0 =>
          simp only [List.map_cons, List.cons.injEq] at hos
          obtain ⟨ho0, rfl⟩ := hos
          have : o0 = .fn k.orig := by
            cases o0 with
            | param p =>
              simp only [bindOperand] at ho0
              split at ho0 <;> cases ho0
            | _ => exact ho0
          subst this
          refine .call (bd' := fun p => k.dicts[p]?) (.inr ⟨k, hk, rfl, rfl⟩) ?_ (bindOperands_rel _ _)
            (fun o ho => hcl o (List.mem_cons_of_mem _ ho)) ?_
          · intro he
            exact hf.fresh _ b hb (he ▸ hp.spec_of g k hk)
          · intro p c hpc
            exact ⟨_, hf.recursion g k b _ t0 hk hb hin rfl hrec rfl p
              (List.getElem?_eq_some_iff.1 hpc).1, .inr ⟨p, rfl, hpc⟩⟩
      · cases hr
        exact hkeep rfl
  · cases hr
    exact hkeep rfl

theorem link {sem : Sem P V C W E} {env : Env} {choose : Nat → Nat → List Nat → Option Nat}
    {sp : Nat → Prop} {keys : Nat → Key → Prop} {tabA : Nat → Option Body} {tabB : Nat → Option Fn}
    (hp : Pass env choose sp keys tabA tabB) (hf : Formed sem env sp keys tabA) :
    Link sem sp (Corr sp keys) (fun f => (tabA f).map (·.fn)) tabB where
  self := fun f h => .inl ⟨rfl, h, rfl⟩
  own := by
    rintro f bd (⟨-, h, -⟩ | ⟨k, hk, ho, -⟩)
    · exact h
    · obtain ⟨b, -, -, hb, -⟩ := hp.spec f k hk
      rw [ho] at hb
      exact hf.fresh f b hb
  have_ := by
    rintro f g bd (⟨h, -⟩ | ⟨k, hk, rfl, -⟩) hne
    · exact absurd h hne
    · obtain ⟨b, -, -, hb, -⟩ := hp.spec g k hk
      exact ⟨b.fn, by simp [hb]⟩
  same := by
    intro f h hA
    exact hp.outside f h (by simpa using hA)
  rel := by
    rintro f g bd F hK hF
    obtain ⟨b, hb, rfl⟩ := Option.map_eq_some_iff.1 hF
    rcases hK with ⟨rfl, h, rfl⟩ | ⟨k, hk, rfl, rfl⟩
    · obtain ⟨G, hG, hs⟩ := hp.plain f b h hb
      exact ⟨G, hG, plain_fn hp hf hb hs⟩
    · obtain ⟨b', S, G, hb', hS, hs, hG⟩ := hp.spec g k hk
      rw [hb] at hb'
      cases hb'
      exact ⟨G, hG, spec_fn hp hf hk hb hS hs⟩
  ops := hf.ops

end Ferlium.Specialize
