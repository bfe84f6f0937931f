import Verif.Model.DeadEvidence

/-!
# Two programs whose calls differ in leading hidden arguments
-/

namespace Ferlium.DeadEvidence

open Inline

variable {P V C W E : Type}

/-- A binding that does not name a special function. -/
def CleanView (sp : Nat → Prop) (v : View P V) : Prop := ∀ f, v = .fn f → ¬ sp f

/-- An operand that does not name a special function. -/
def CleanOperand (sp : Nat → Prop) (o : Operand) : Prop := ∀ f, o = .fn f → ¬ sp f

/-- A program of an operation neither calls nor makes special functions. -/
def CleanProg (sp : Nat → Prop) : Prog P V C W E → Prop
  | .done (.ok _ res _) => ∀ v, res = some v → CleanView sp v
  | .done _ => True
  | .call f args _ k => ¬ sp f ∧ (∀ v ∈ args, CleanView sp v) ∧ ∀ e m, CleanProg sp (k e m)

/-- An end that does not name a special function. -/
def CleanOut (sp : Nat → Prop) : Out P V C W E → Prop
  | .ok _ res _ => ∀ v, res = some v → CleanView sp v
  | _ => True

/-- Operands of bodies whose parameters are shifted. -/
inductive OperRel (i j : Nat) : Operand → Operand → Prop
  | param (p : Nat) : OperRel i j (.param (i + p)) (.param (j + p))
  | reg (r : Nat) : OperRel i j (.reg r) (.reg r)
  | fn (f : Nat) : OperRel i j (.fn f) (.fn f)
  | const (c : Nat) : OperRel i j (.const c) (.const c)

/-- Operations of bodies whose parameters are shifted. -/
inductive OpRel (sp : Nat → Prop) (nA nB : Nat → Nat) (i j : Nat) : Op → Op → Prop
  | plain {k : Kind} {data : Nat} {os os' : List Operand} {res : Option Reg} : List.Forall₂ (OperRel i j) os os' →
      (∀ o ∈ os, CleanOperand sp o) → OpRel sp nA nB i j ⟨k, data, os, res⟩ ⟨k, data, os', res⟩
  | call {data f : Nat} {cA cB : List Nat} {xs ys : List Operand} {res : Option Reg} : sp f → cA.length = nA f → cB.length = nB f →
      List.Forall₂ (OperRel i j) xs ys → (∀ o ∈ xs, CleanOperand sp o) →
      OpRel sp nA nB i j ⟨.call, data, .fn f :: (cA.map Operand.const ++ xs), res⟩
        ⟨.call, data, .fn f :: (cB.map Operand.const ++ ys), res⟩

/-- Terminators. -/
inductive TermRel (sp : Nat → Prop) (nA nB : Nat → Nat) (i j : Nat) : Term → Term → Prop
  | goto (t) : TermRel sp nA nB i j (.goto t) (.goto t)
  | condBr {c c' a b} : OperRel i j c c' → TermRel sp nA nB i j (.condBr c a b) (.condBr c' a b)
  | invoke {op op' n e} : OpRel sp nA nB i j op op' →
      TermRel sp nA nB i j (.invoke op n e) (.invoke op' n e)
  | ret : TermRel sp nA nB i j .ret .ret
  | propagate : TermRel sp nA nB i j .propagate .propagate
  | failure : TermRel sp nA nB i j .failure .failure
  | yield {p p' t} : OperRel i j p p' → TermRel sp nA nB i j (.yield p t) (.yield p' t)

/-- Blocks. -/
def BlockRel (sp : Nat → Prop) (nA nB : Nat → Nat) (i j : Nat) (x y : Block) : Prop :=
  List.Forall₂ (OpRel sp nA nB i j) x.ops y.ops ∧ TermRel sp nA nB i j x.term y.term

/-- Functions. -/
def FnRel (sp : Nat → Prop) (nA nB : Nat → Nat) (i j : Nat) (F G : Fn) : Prop :=
  (∃ k, F.params = i + k ∧ G.params = j + k) ∧
    List.Forall₂ (BlockRel sp nA nB i j) F.blocks G.blocks

/-- Two programs in which calls of special functions pass `nA` and `nB` hidden constants. -/
structure Link (sem : Sem P V C W E) (sp : Nat → Prop) (nA nB : Nat → Nat)
    (tabA tabB : Nat → Option Fn) : Prop where
  other : ∀ f, ¬ sp f → nA f = 0 ∧ nB f = 0
  have_ : ∀ f, sp f → ∃ F, tabA f = some F
  same : ∀ f, tabA f = none → tabB f = none
  rel : ∀ f F, tabA f = some F → ∃ G, tabB f = some G ∧ FnRel sp nA nB (nA f) (nB f) F G
  ops : ∀ k data vs m, (∀ v ∈ vs, CleanView sp v) → CleanProg sp (sem.op k data vs m)

/-- Frames. -/
structure FrameRel (sp : Nat → Prop) (i j : Nat) (x y : Frame P V E) : Prop where
  slots : x.slots = y.slots
  pending : x.pending = y.pending
  second : x.second = y.second
  params : ∃ a b c, x.params = a ++ c ∧ y.params = b ++ c ∧ a.length = i ∧ b.length = j ∧
    ∀ v ∈ c, CleanView sp v
  clean : ∀ r v, x.slots r = some v → CleanView sp v

/-- Pieces of execution. -/
inductive JobRel (sp : Nat → Prop) (nA nB : Nat → Nat) : Job P V C W E → Job P V C W E → Prop
  | func {d f a b c m} : a.length = nA f → b.length = nB f → (∀ v ∈ c, CleanView sp v) →
      JobRel sp nA nB (.func d f (a ++ c) m) (.func d f (b ++ c) m)
  | prog {d p} : CleanProg sp p → JobRel sp nA nB (.prog d p) (.prog d p)
  | exec {d k data vs m} : (∀ v ∈ vs, CleanView sp v) →
      JobRel sp nA nB (.exec d k data vs m) (.exec d k data vs m)
  | call {d data f a b c m} : sp f → a.length = nA f → b.length = nB f →
      (∀ v ∈ a, v.passable = true) → (∀ v ∈ b, v.passable = true) → (∀ v ∈ c, CleanView sp v) →
      JobRel sp nA nB (.exec d .call data (.fn f :: (a ++ c)) m)
        (.exec d .call data (.fn f :: (b ++ c)) m)
  | code {d i j F G st st' b n m} : FnRel sp nA nB i j F G → FrameRel sp i j st st' →
      JobRel sp nA nB (.code d F st b n m) (.code d G st' b n m)

theorem view_rel {sp : Nat → Prop} {i j : Nat} {st st' : Frame P V E} (hs : FrameRel sp i j st st')
    {o o' : Operand} (h : OperRel i j o o') : st.view o = st'.view o' := by
  cases h with
  | param p =>
    obtain ⟨a, b, c, h1, h2, h3, h4, -⟩ := hs.params
    simp only [Frame.view, h1, h2]
    rw [List.getElem?_append_right (by omega), List.getElem?_append_right (by omega), h3, h4]
    simp
  | reg r => simp only [Frame.view, hs.slots]
  | fn f => rfl
  | const c => rfl

theorem view_clean {sp : Nat → Prop} {i j : Nat} {st st' : Frame P V E} (hs : FrameRel sp i j st st')
    {o o' : Operand} (h : OperRel i j o o') (hc : CleanOperand sp o) {v : View P V}
    (hv : st.view o = some v) : CleanView sp v := by
  cases h with
  | param p =>
    obtain ⟨a, b, c, h1, h2, h3, h4, h5⟩ := hs.params
    simp only [Frame.view, h1] at hv
    rw [List.getElem?_append_right (by omega)] at hv
    exact h5 v (List.mem_of_getElem? hv)
  | reg r => exact hs.clean r v hv
  | fn f =>
    simp only [Frame.view, Option.some.injEq] at hv
    subst hv
    intro g hg
    cases hg
    exact hc f rfl
  | const c =>
    simp only [Frame.view, Option.some.injEq] at hv
    subst hv
    intro g hg
    cases hg

theorem views_rel {sp : Nat → Prop} {i j : Nat} {st st' : Frame P V E}
    (hs : FrameRel sp i j st st') {os os' : List Operand} (h : List.Forall₂ (OperRel i j) os os')
    (hc : ∀ o ∈ os, CleanOperand sp o) {vs : List (View P V)} (hv : os.mapM st.view = some vs) :
    os'.mapM st'.view = some vs ∧ ∀ v ∈ vs, CleanView sp v := by
  induction h generalizing vs with
  | nil =>
    simp only [List.mapM_nil, Option.pure_def, Option.some.injEq] at hv ⊢
    subst hv
    exact ⟨rfl, by simp⟩
  | @cons o o' t t' ho _ ih =>
    simp only [List.mapM_cons, Option.bind_eq_bind, Option.bind_eq_some_iff, Option.pure_def,
      Option.some.injEq] at hv ⊢
    obtain ⟨v, hv1, ws, hv2, rfl⟩ := hv
    obtain ⟨h1, h2⟩ := ih (fun o ho => hc o (List.mem_cons_of_mem _ ho)) hv2
    refine ⟨⟨v, by rw [← view_rel hs ho]; exact hv1, ws, h1, rfl⟩, fun w hw => ?_⟩
    rcases List.mem_cons.1 hw with rfl | hw
    · exact view_clean hs ho (hc o List.mem_cons_self) hv1
    · exact h2 w hw

theorem views_const {st : Frame P V E} (cs : List Nat) :
    (cs.map Operand.const).mapM st.view = some (cs.map View.const) := by
  induction cs with
  | nil => rfl
  | cons c t ih => simp [List.mapM_cons, ih, Frame.view]

theorem mapM_append_some {α β : Type} {f : α → Option β} (l k : List α) :
    (l ++ k).mapM f = (l.mapM f).bind fun a => (k.mapM f).map fun b => a ++ b := by
  induction l with
  | nil => simp
  | cons x t ih =>
    simp only [List.cons_append, List.mapM_cons, ih, Option.bind_eq_bind, Option.pure_def]
    cases f x <;> simp
    cases t.mapM f <;> simp
    cases k.mapM f <;> simp

/-- What an operation does in the two programs. -/
theorem exec_rel {sp : Nat → Prop} {nA nB : Nat → Nat} {i j : Nat} {st st' : Frame P V E}
    (hs : FrameRel sp i j st st') {op op' : Op} (h : OpRel sp nA nB i j op op')
    {vs : List (View P V)} (hv : op.operands.mapM st.view = some vs) (d : Nat) (m : Mem C W) :
    ∃ vs', op'.operands.mapM st'.view = some vs' ∧
      JobRel (E := E) sp nA nB (.exec d op.kind op.data vs m) (.exec d op'.kind op'.data vs' m) := by
  cases h with
  | plain ho hc =>
    obtain ⟨h1, h2⟩ := views_rel hs ho hc hv
    exact ⟨vs, h1, .exec h2⟩
  | @call data f cA cB xs ys res hsp hA hB ho hc =>
    simp only [List.mapM_cons, Option.bind_eq_bind, Option.bind_eq_some_iff, Option.pure_def,
      Option.some.injEq] at hv
    obtain ⟨v, hv1, ws, hv2, rfl⟩ := hv
    rw [mapM_append_some, views_const] at hv2
    simp only [Option.bind_some, Option.map_eq_some_iff] at hv2
    obtain ⟨c, hc1, rfl⟩ := hv2
    obtain ⟨h1, h2⟩ := views_rel hs ho hc hc1
    simp only [Frame.view, Option.some.injEq] at hv1
    subst hv1
    refine ⟨.fn f :: (cB.map View.const ++ c), ?_, .call hsp (by simpa) (by simpa) ?_ ?_ h2⟩
    · simp only [List.mapM_cons, mapM_append_some, views_const, h1]
      rfl
    · intro v hv
      obtain ⟨x, -, rfl⟩ := List.mem_map.1 hv
      rfl
    · intro v hv
      obtain ⟨x, -, rfl⟩ := List.mem_map.1 hv
      rfl

theorem OpRel.same {sp : Nat → Prop} {nA nB : Nat → Nat} {i j : Nat} {op op' : Op}
    (h : OpRel sp nA nB i j op op') :
    op.kind = op'.kind ∧ op.result = op'.result ∧ op.data = op'.data := by
  cases h <;> exact ⟨rfl, rfl, rfl⟩

theorem writeBack_clean {sp : Nat → Prop} (os : List Operand) :
    ∀ (slots : Reg → Option (View P V)) (backs : List V),
      (∀ r v, slots r = some v → CleanView sp v) →
      ∀ r v, writeBack slots os backs r = some v → CleanView sp v := by
  induction os with
  | nil => exact fun slots backs h r v hv => h r v (by simpa [writeBack] using hv)
  | cons o t ih =>
    intro slots backs h r v hv
    cases backs with
    | nil => exact h r v (by cases o <;> simpa [writeBack] using hv)
    | cons x xs =>
      cases o with
      | reg q =>
        simp only [writeBack] at hv
        refine ih _ xs ?_ r v hv
        intro r' v' h'
        rcases hsl : slots q with _ | (_ | w | _ | _ | _) <;> rw [hsl] at h' <;> simp only [] at h'
        case value =>
          by_cases hq : r' = q
          · subst hq
            rw [Function.update_self] at h'
            cases h'
            intro f hf
            cases hf
          · rw [Function.update_of_ne hq] at h'
            exact h r' v' h'
        all_goals exact h r' v' h'
      | param p => exact ih slots xs h r v (by simpa only [writeBack] using hv)
      | fn p => exact ih slots xs h r v (by simpa only [writeBack] using hv)
      | const p => exact ih slots xs h r v (by simpa only [writeBack] using hv)

/-- Constants and parameters take nothing back. -/
theorem writeBack_rel {i j : Nat} {os os' : List Operand} (h : List.Forall₂ (OperRel i j) os os') :
    ∀ (slots : Reg → Option (View P V)) (backs : List V),
      writeBack slots os backs = writeBack slots os' backs := by
  induction h with
  | nil => intro slots backs; rfl
  | @cons o o' t t' ho _ ih =>
    intro slots backs
    cases backs with
    | nil => cases ho <;> rfl
    | cons x xs => cases ho <;> simp only [writeBack, ih]

/-- Functions end as functions do. -/
def Plain : Job P V C W E → Out P V C W E → Prop
  | .func .., r | .code .., r => (∀ b v m, r ≠ .ok b v m) ∧ ∀ b e m, r ≠ .fail b e m
  | _, _ => True

theorem plain_of {sem : Sem P V C W E} {tab : Nat → Option Fn} {job : Job P V C W E}
    {r : Out P V C W E} (h : Run sem tab job r) : Plain job r := by
  induction h with
  | @func d f args m F r _ _ _ ih =>
    simp only [Plain] at ih ⊢
    cases r <;> simp_all [Out.close]
  | _ => first | trivial | (simp only [Plain] at *; assumption) | (simp [Plain])

/-- A direct call takes nothing back. -/
theorem direct_backs {sem : Sem P V C W E} {tab : Nat → Option Fn} {d data f : Nat} {F : Fn}
    {args : List (View P V)} {m : Mem C W} {r : Out P V C W E} (hf : tab f = some F)
    (h : Run sem tab (.exec d .call data (.fn f :: args) m) r) :
    (∀ b v m, r = .ok b v m → b = []) ∧ ∀ b e m, r = .fail b e m → b = [] := by
  cases h with
  | direct _ _ h =>
    have := plain_of h
    simp only [Plain] at this
    constructor
    · intro b v m' he
      rename_i r' _ _
      cases r' <;> simp_all [Out.asOp]
    · intro b v m' he
      rename_i r' _ _
      cases r' <;> simp_all [Out.asOp]
  | plain _ h _ => simp [directCallee, hf] at h

theorem after_rel {sp : Nat → Prop} {nA nB : Nat → Nat} {i j : Nat} {st st' : Frame P V E}
    (hs : FrameRel sp i j st st') {op op' : Op} (h : OpRel sp nA nB i j op op') {backs : List V}
    {res : Option (View P V)} (hr : ∀ v, res = some v → CleanView sp v)
    (hb : op.kind = .call → (∃ f os, op.operands = .fn f :: os ∧ sp f) → backs = []) :
    FrameRel sp i j (st.after op backs res) (st'.after op' backs res) := by
  have hw : writeBack st.slots op.operands backs = writeBack st'.slots op'.operands backs := by
    cases h with
    | plain ho _ => rw [hs.slots]; exact writeBack_rel ho _ _
    | @call data f cA cB xs ys res hsp _ _ _ _ =>
      have : backs = [] := hb rfl ⟨f, _, rfl, hsp⟩
      subst this
      simp only [writeBack, hs.slots]
  have hres := h.same.2.1
  refine ⟨?_, hs.pending, hs.second, hs.params, ?_⟩
  · simp only [Frame.after, hw, hres]
  · intro r v hv
    simp only [Frame.after] at hv
    have hcl := writeBack_clean op.operands st.slots backs hs.clean
    cases ho : op.result with
    | none => rw [ho] at hv; exact hcl r v hv
    | some r' =>
      rw [ho] at hv
      cases res with
      | none => exact hcl r v hv
      | some v' =>
        simp only [] at hv
        by_cases hq : r = r'
        · subst hq
          rw [Function.update_self] at hv
          cases hv
          exact hr _ rfl
        · rw [Function.update_of_ne hq] at hv
          exact hcl r v hv

theorem set_rel {sp : Nat → Prop} {i j : Nat} {st st' : Frame P V E} (hs : FrameRel sp i j st st')
    (r : Reg) (n : Nat) : FrameRel sp i j (st.set r (.mark n)) (st'.set r (.mark n)) := by
  refine ⟨by simp only [Frame.set, hs.slots], hs.pending, hs.second, hs.params, ?_⟩
  intro q v hv
  simp only [Frame.set] at hv
  by_cases hq : q = r
  · subst hq
    rw [Function.update_self] at hv
    cases hv
    intro f hf
    cases hf
  · rw [Function.update_of_ne hq] at hv
    exact hs.clean q v hv

theorem fail_rel {sp : Nat → Prop} {i j : Nat} {st st' st1 : Frame P V E}
    (hs : FrameRel sp i j st st') {e : E} (h : st.fail e = some st1) :
    ∃ st2, st'.fail e = some st2 ∧ FrameRel sp i j st1 st2 := by
  unfold Frame.fail at h ⊢
  rw [← hs.pending, ← hs.second]
  cases hp : st.pending <;> cases h2 : st.second <;> rw [hp, h2] at h <;> simp only [] at h ⊢ <;>
    first
    | (cases h
       exact ⟨_, rfl, ⟨hs.slots, by simp, by simp, hs.params, hs.clean⟩⟩)
    | exact absurd h (by simp)

theorem block_rel {sp : Nat → Prop} {nA nB : Nat → Nat} {i j : Nat} {F G : Fn}
    (h : FnRel sp nA nB i j F G) {b : Nat} {blk : Block} (hb : F.blocks[b]? = some blk) :
    ∃ blk', G.blocks[b]? = some blk' ∧ BlockRel sp nA nB i j blk blk' := by
  obtain ⟨hlt, hx⟩ := List.getElem?_eq_some_iff.1 hb
  have hlt' : b < G.blocks.length := by rw [← h.2.length_eq]; exact hlt
  refine ⟨G.blocks[b], List.getElem?_eq_getElem hlt', ?_⟩
  rw [← hx]
  exact List.Forall₂.get h.2 hlt hlt'

theorem op_rel {sp : Nat → Prop} {nA nB : Nat → Nat} {i j : Nat} {x y : Block}
    (h : BlockRel sp nA nB i j x y) {k : Nat} {op : Op} (ho : x.ops[k]? = some op) :
    ∃ op', y.ops[k]? = some op' ∧ OpRel sp nA nB i j op op' := by
  obtain ⟨hlt, hx⟩ := List.getElem?_eq_some_iff.1 ho
  have hlt' : k < y.ops.length := by rw [← h.1.length_eq]; exact hlt
  refine ⟨y.ops[k], List.getElem?_eq_getElem hlt', ?_⟩
  rw [← hx]
  exact List.Forall₂.get h.1 hlt hlt'

theorem poison_rel {sp : Nat → Prop} {i j : Nat} {st st' : Frame P V E} (sem : Sem P V C W E)
    (hs : FrameRel sp i j st st') (e : E) : st.poison sem e = st'.poison sem e := by
  simp only [Frame.poison, hs.pending]

/-- An operation of a special call takes nothing back. -/
theorem backs_of {sem : Sem P V C W E} {sp : Nat → Prop} {nA nB : Nat → Nat}
    {tabA tabB : Nat → Option Fn} (L : Link sem sp nA nB tabA tabB) {st : Frame P V E} {op : Op}
    {vs : List (View P V)} {d : Nat} {m : Mem C W} {r : Out P V C W E}
    (hv : op.operands.mapM st.view = some vs) (h : Run sem tabA (.exec d op.kind op.data vs m) r)
    (hk : op.kind = .call) (hf : ∃ f os, op.operands = .fn f :: os ∧ sp f) :
    (∀ b v m, r = .ok b v m → b = []) ∧ ∀ b e m, r = .fail b e m → b = [] := by
  obtain ⟨f, os, ho, hsp⟩ := hf
  obtain ⟨F, hF⟩ := L.have_ f hsp
  rw [ho] at hv
  simp only [List.mapM_cons, Option.bind_eq_bind, Option.bind_eq_some_iff, Option.pure_def,
      Option.some.injEq, Frame.view] at hv
  obtain ⟨_, rfl, ws, -, rfl⟩ := hv
  rw [hk] at h
  exact direct_backs hF h

/-- **The two programs run alike.** -/
theorem transfer {sem : Sem P V C W E} {sp : Nat → Prop} {nA nB : Nat → Nat}
    {tabA tabB : Nat → Option Fn} (L : Link sem sp nA nB tabA tabB) {job : Job P V C W E}
    {r : Out P V C W E} (h : Run sem tabA job r) :
    ∀ job', JobRel sp nA nB job job' → Run sem tabB job' r ∧ CleanOut sp r := by
  induction h with
  | @func d f args m F r hF hlen _ ih =>
    intro job' hj
    obtain ⟨G, hG, hrel⟩ := L.rel f F hF
    cases hj with
    | @func _ _ a b c _ ha hb hc =>
      obtain ⟨k, hk1, hk2⟩ := hrel.1
      have hlen' : (b ++ c).length = G.params := by
        rw [List.length_append] at hlen ⊢
        omega
      obtain ⟨h1, -⟩ := ih _ (.code (st' := ⟨fun _ => none, b ++ c, none, none⟩) hrel
        ⟨rfl, rfl, rfl, ⟨a, b, c, rfl, rfl, ha, hb, hc⟩, by simp⟩)
      have hp := plain_of h1
      refine ⟨.func hG hlen' h1, ?_⟩
      simp only [Plain] at hp
      cases r <;> simp_all [Out.close, CleanOut]
  | progOk =>
    intro job' hj
    cases hj with
    | prog hc => exact ⟨.progOk, hc⟩
  | progFail =>
    intro job' hj
    cases hj with
    | prog hc => exact ⟨.progFail, trivial⟩
  | progPoison =>
    intro job' hj
    cases hj with
    | prog hc => exact ⟨.progPoison, trivial⟩
  | callOk _ _ ih1 ih2 =>
    intro job' hj
    cases hj with
    | prog hc =>
      obtain ⟨h1, h2, h3⟩ := hc
      obtain ⟨a, b⟩ := L.other _ h1
      obtain ⟨r2, c2⟩ := ih2 _ (.prog (h3 _ _))
      exact ⟨.callOk (ih1 _ (.func (a := []) (b := []) (by simp [a]) (by simp [b]) h2)).1 r2, c2⟩
  | callErr _ _ ih1 ih2 =>
    intro job' hj
    cases hj with
    | prog hc =>
      obtain ⟨h1, h2, h3⟩ := hc
      obtain ⟨a, b⟩ := L.other _ h1
      obtain ⟨r2, c2⟩ := ih2 _ (.prog (h3 _ _))
      exact ⟨.callErr (ih1 _ (.func (a := []) (b := []) (by simp [a]) (by simp [b]) h2)).1 r2, c2⟩
  | callPoison _ ih1 =>
    intro job' hj
    cases hj with
    | prog hc =>
      obtain ⟨h1, h2, h3⟩ := hc
      obtain ⟨a, b⟩ := L.other _ h1
      exact ⟨.callPoison (ih1 _ (.func (a := []) (b := []) (by simp [a]) (by simp [b]) h2)).1,
        trivial⟩
  | callDeep _ ih1 =>
    intro job' hj
    cases hj with
    | prog hc =>
      obtain ⟨h1, h2, h3⟩ := hc
      obtain ⟨a, b⟩ := L.other _ h1
      exact ⟨.callDeep (ih1 _ (.func (a := []) (b := []) (by simp [a]) (by simp [b]) h2)).1,
        trivial⟩
  | @direct d data f args m r hf hp hrun ih =>
    intro job' hj
    obtain ⟨F, hF⟩ := Option.isSome_iff_exists.1 hf
    obtain ⟨G, hG, -⟩ := L.rel f F hF
    have hclean : CleanOut sp r.asOp := by
      have := plain_of hrun
      simp only [Plain] at this
      cases r <;> simp_all [Out.asOp, CleanOut]
    cases hj with
    | exec hc =>
      have hsp : ¬ sp f := hc _ List.mem_cons_self f rfl
      obtain ⟨a, b⟩ := L.other _ hsp
      exact ⟨.direct (by rw [hG]; rfl) hp (ih _ (.func (a := []) (b := []) (by simp [a]) (by simp [b])
        fun v hv => hc v (List.mem_cons_of_mem _ hv))).1, hclean⟩
    | @call _ _ _ a b c _ hsp ha hb hpa hpb hc =>
      refine ⟨.direct (by rw [hG]; rfl) ?_ (ih _ (.func ha hb hc)).1, hclean⟩
      rw [List.all_append, Bool.and_eq_true] at hp ⊢
      exact ⟨by rw [List.all_eq_true]; exact hpb, hp.2⟩
  | @plain d k data vs m r hk hd _ ih =>
    intro job' hj
    cases hj with
    | exec hc =>
      obtain ⟨h1, h2⟩ := ih _ (.prog (L.ops k data vs m hc))
      refine ⟨.plain hk ?_ h1, h2⟩
      unfold directCallee at hd ⊢
      split at hd
      · rename_i f _ _
        cases hA : tabA f with
        | none => simp [L.same f hA]
        | some F => simp [hA] at hd
      · rfl
    | @call _ _ f a b c _ hsp ha hb hpa hpb hc =>
      obtain ⟨F, hF⟩ := L.have_ f hsp
      simp [directCallee, hF] at hd
  | @save d F st b j m blk op reg r hb ho hk hr _ ih =>
    intro job' hj
    cases hj with
    | code hF hs =>
      obtain ⟨blk', hb', hB⟩ := block_rel hF hb
      obtain ⟨op', ho', hO⟩ := op_rel hB ho
      obtain ⟨h1, h2⟩ := ih _ (.code hF (set_rel hs reg _))
      exact ⟨.save hb' ho' (hO.same.1 ▸ hk) (hO.same.2.1 ▸ hr) h1, h2⟩
  | @restore d F st b j m blk op o n r hb ho hk hop hv _ ih =>
    intro job' hj
    cases hj with
    | code hF hs =>
      obtain ⟨blk', hb', hB⟩ := block_rel hF hb
      obtain ⟨op', ho', hO⟩ := op_rel hB ho
      obtain ⟨h1, h2⟩ := ih _ (.code hF hs)
      cases hO with
      | plain hos hcl =>
        simp only at hop
        subst hop
        cases hos with
        | cons hoo ht =>
          cases ht
          exact ⟨.restore hb' ho' hk rfl (by rw [← view_rel hs hoo]; exact hv) h1, h2⟩
      | call => exact absurd hk (by simp)
  | @depthOk d F st b j m blk op r hb ho hk hd _ ih =>
    intro job' hj
    cases hj with
    | code hF hs =>
      obtain ⟨blk', hb', hB⟩ := block_rel hF hb
      obtain ⟨op', ho', hO⟩ := op_rel hB ho
      obtain ⟨h1, h2⟩ := ih _ (.code hF hs)
      exact ⟨.depthOk hb' ho' (hO.same.1 ▸ hk) hd h1, h2⟩
  | @depthStop d F st b j m blk op hb ho hk hd =>
    intro job' hj
    cases hj with
    | code hF hs =>
      obtain ⟨blk', hb', hB⟩ := block_rel hF hb
      obtain ⟨op', ho', hO⟩ := op_rel hB ho
      exact ⟨.depthStop hb' ho' (hO.same.1 ▸ hk) hd, trivial⟩
  | @opOk d F st b j m blk op vs backs res m' r hb ho hv hx _ ih1 ih2 =>
    intro job' hj
    cases hj with
    | code hF hs =>
      obtain ⟨blk', hb', hB⟩ := block_rel hF hb
      obtain ⟨op', ho', hO⟩ := op_rel hB ho
      obtain ⟨vs', hv', hjr⟩ := exec_rel hs hO hv d m
      obtain ⟨r1, c1⟩ := ih1 _ hjr
      obtain ⟨r2, c2⟩ := ih2 _ (.code hF (after_rel hs hO c1
        fun hk hf => (backs_of L hv hx hk hf).1 _ _ _ rfl))
      exact ⟨.opOk hb' ho' hv' r1 r2, c2⟩
  | @opPoison d F st b j m blk op vs e w hb ho hv hx ih1 =>
    intro job' hj
    cases hj with
    | code hF hs =>
      obtain ⟨blk', hb', hB⟩ := block_rel hF hb
      obtain ⟨op', ho', hO⟩ := op_rel hB ho
      obtain ⟨vs', hv', hjr⟩ := exec_rel hs hO hv d m
      rw [poison_rel sem hs]
      exact ⟨.opPoison hb' ho' hv' (ih1 _ hjr).1, trivial⟩
  | @opDeep d F st b j m blk op vs hb ho hv hx ih1 =>
    intro job' hj
    cases hj with
    | code hF hs =>
      obtain ⟨blk', hb', hB⟩ := block_rel hF hb
      obtain ⟨op', ho', hO⟩ := op_rel hB ho
      obtain ⟨vs', hv', hjr⟩ := exec_rel hs hO hv d m
      exact ⟨.opDeep hb' ho' hv' (ih1 _ hjr).1, trivial⟩
  | @goto d F st b m blk t r hb ht _ ih =>
    intro job' hj
    cases hj with
    | code hF hs =>
      obtain ⟨blk', hb', hB⟩ := block_rel hF hb
      have hT := hB.2
      rw [ht] at hT
      generalize hy : blk'.term = t' at hT
      cases hT
      obtain ⟨h1, h2⟩ := ih _ (.code hF hs)
      rw [hB.1.length_eq]
      exact ⟨.goto hb' hy h1, h2⟩
  | @condBr d F st b m blk c x y v t r hb ht hv htest _ ih =>
    intro job' hj
    cases hj with
    | code hF hs =>
      obtain ⟨blk', hb', hB⟩ := block_rel hF hb
      have hT := hB.2
      rw [ht] at hT
      generalize hy : blk'.term = t' at hT
      cases hT with
      | condBr hc =>
        obtain ⟨h1, h2⟩ := ih _ (.code hF hs)
        rw [hB.1.length_eq]
        exact ⟨.condBr hb' hy (by rw [← view_rel hs hc]; exact hv) htest h1, h2⟩
  | @invokeOk d F st b m blk op n e vs backs res m' r hb ht hv hx _ ih1 ih2 =>
    intro job' hj
    cases hj with
    | code hF hs =>
      obtain ⟨blk', hb', hB⟩ := block_rel hF hb
      have hT := hB.2
      rw [ht] at hT
      generalize hy : blk'.term = t' at hT
      cases hT with
      | invoke hO =>
        obtain ⟨vs', hv', hjr⟩ := exec_rel hs hO hv d m
        obtain ⟨r1, c1⟩ := ih1 _ hjr
        obtain ⟨r2, c2⟩ := ih2 _ (.code hF (after_rel hs hO c1
          fun hk hf => (backs_of L hv hx hk hf).1 _ _ _ rfl))
        rw [hB.1.length_eq]
        exact ⟨.invokeOk hb' hy hv' r1 r2, c2⟩
  | @invokeFail d F st b m blk op n e vs backs err m' st1 r hb ht hv hx hfail _ ih1 ih2 =>
    intro job' hj
    cases hj with
    | code hF hs =>
      obtain ⟨blk', hb', hB⟩ := block_rel hF hb
      have hT := hB.2
      rw [ht] at hT
      generalize hy : blk'.term = t' at hT
      cases hT with
      | invoke hO =>
        obtain ⟨vs', hv', hjr⟩ := exec_rel hs hO hv d m
        obtain ⟨r1, c1⟩ := ih1 _ hjr
        obtain ⟨st2, hf2, hs2⟩ := fail_rel (after_rel hs hO (backs := backs) (res := none) (by simp)
          fun hk hf => (backs_of L hv hx hk hf).2 _ _ _ rfl) hfail
        obtain ⟨r2, c2⟩ := ih2 _ (.code hF hs2)
        rw [hB.1.length_eq]
        exact ⟨.invokeFail hb' hy hv' r1 hf2 r2, c2⟩
  | @invokePoison d F st b m blk op n e vs err w hb ht hv hx ih1 =>
    intro job' hj
    cases hj with
    | code hF hs =>
      obtain ⟨blk', hb', hB⟩ := block_rel hF hb
      have hT := hB.2
      rw [ht] at hT
      generalize hy : blk'.term = t' at hT
      cases hT with
      | invoke hO =>
        obtain ⟨vs', hv', hjr⟩ := exec_rel hs hO hv d m
        rw [hB.1.length_eq, poison_rel sem hs]
        exact ⟨.invokePoison hb' hy hv' (ih1 _ hjr).1, trivial⟩
  | @invokeDeep d F st b m blk op n e vs hb ht hv hx ih1 =>
    intro job' hj
    cases hj with
    | code hF hs =>
      obtain ⟨blk', hb', hB⟩ := block_rel hF hb
      have hT := hB.2
      rw [ht] at hT
      generalize hy : blk'.term = t' at hT
      cases hT with
      | invoke hO =>
        obtain ⟨vs', hv', hjr⟩ := exec_rel hs hO hv d m
        rw [hB.1.length_eq]
        exact ⟨.invokeDeep hb' hy hv' (ih1 _ hjr).1, trivial⟩
  | @ret d F st b m blk hb ht hp h2 =>
    intro job' hj
    cases hj with
    | code hF hs =>
      obtain ⟨blk', hb', hB⟩ := block_rel hF hb
      have hT := hB.2
      rw [ht] at hT
      generalize hy : blk'.term = t' at hT
      cases hT
      rw [hB.1.length_eq]
      exact ⟨.ret hb' hy (hs.pending ▸ hp) (hs.second ▸ h2), trivial⟩
  | @propagate d F st b m blk e hb ht hp h2 =>
    intro job' hj
    cases hj with
    | code hF hs =>
      obtain ⟨blk', hb', hB⟩ := block_rel hF hb
      have hT := hB.2
      rw [ht] at hT
      generalize hy : blk'.term = t' at hT
      cases hT
      rw [hB.1.length_eq]
      exact ⟨.propagate hb' hy (hs.pending ▸ hp) (hs.second ▸ h2), trivial⟩
  | @failure d F st b m blk e e' hb ht hp h2 =>
    intro job' hj
    cases hj with
    | code hF hs =>
      obtain ⟨blk', hb', hB⟩ := block_rel hF hb
      have hT := hB.2
      rw [ht] at hT
      generalize hy : blk'.term = t' at hT
      cases hT
      rw [hB.1.length_eq]
      exact ⟨.failure hb' hy (hs.pending ▸ hp) (hs.second ▸ h2), trivial⟩

end Ferlium.DeadEvidence
