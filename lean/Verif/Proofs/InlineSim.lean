import Verif.Proofs.Inline

/-!
# A copied body runs as the call it replaces
-/

namespace Ferlium.Inline

variable {P V C W E : Type}

/-- Every register a function names is below its counter of registers. -/
def NamesBelow (F : Fn) : Prop :=
  ∀ blk ∈ F.blocks,
    (∀ op ∈ blk.ops ++ blk.term.invoked.toList,
      (∀ o ∈ op.operands, o.below F.next) ∧ ∀ r, op.result = some r → r < F.next) ∧
    ∀ c x y, blk.term = .condBr c x y → c.below F.next

/-- What the proof of simulation is given. -/
structure Setup (tab tab' : Nat → Option Fn) (g callee : Nat) (F body F' : Fn) (site : Site)
    (call : Op) (s : Splice) (calm : Nat → Prop) : Prop where
  glue : Glue F body F' site call s
  hF : tab g = some F
  hbody : tab callee = some body
  htab : tab' = Function.update tab g (some F')
  kind : call.kind = .call
  head : ∃ os, call.operands = .fn callee :: os
  names : NamesBelow F
  /-- Blocks without an error in flight. -/
  calm_error : ∀ (b : Nat) blk op n e, F.blocks[b]? = some blk → blk.term = .invoke op n e → ¬ calm e
  calm_succ : ∀ (b : Nat) blk t, F.blocks[b]? = some blk → t ∈ blk.term.succs → calm t → calm b
  calm_site : errorFlow body = true → calm site.block

section

variable {sem : Sem P V C W E} {tab tab' : Nat → Option Fn} {g callee : Nat} {F body F' : Fn}
  {site : Site} {call : Op} {s : Splice} {calm : Nat → Prop}

/-- Frames of the caller and of the inlined function. -/
structure Same (N : Nat) (st st' : Frame P V E) : Prop where
  agree : Agree N st.slots st'.slots
  params : st'.params = st.params
  pending : st'.pending = st.pending
  second : st'.second = st.second

/-- The frame of the callee beside the frame of the inlined function. -/
structure Inside (N : Nat) (ren : Reg → Option Reg) (flow : Bool) (n : Nat)
    (stc st st' : Frame P V E) : Prop where
  copied : Copied N ren (.mark n) st.slots stc.slots st'.slots
  params : st'.params = st.params
  flows : flow = true → st.pending = none ∧ st.second = none ∧ st'.pending = stc.pending ∧
    st'.second = stc.second
  still : flow = false → stc.pending = none ∧ stc.second = none ∧ st'.pending = st.pending ∧
    st'.second = st.second

/-- What the inlined function does from a position in the copy, given how the callee ends. -/
def Ends (sem : Sem P V C W E) (tab' : Nat → Option Fn) (F' : Fn) (s : Splice) (N d' n : Nat)
    (st : Frame P V E) (here : Out P V C W E → Prop) : Out P V C W E → Prop
  | .done m1 => ∀ R, (∀ st'', Same N st st'' →
      Run sem tab' (.code d' F' st'' s.normal 0 (m1.cut n)) R) → here R
  | .err e m1 => st.pending = none ∧ st.second = none ∧ ∀ R t, s.error = some t →
      (∀ st'', Same N { st with pending := some e } st'' →
        Run sem tab' (.code d' F' st'' t 0 (m1.cut n)) R) → here R
  | .poison e w => here (.poison (st.poison sem e) w)
  | .deep => True
  | _ => False

theorem Ends.mono {N d' n : Nat} {st : Frame P V E} {here here' : Out P V C W E → Prop}
    (h : ∀ R, here' R → here R) : ∀ {r}, Ends sem tab' F' s N d' n st here' r →
      Ends sem tab' F' s N d' n st here r
  | .done m1, he => fun R hR => h R (he R hR)
  | .err e m1, he => ⟨he.1, he.2.1, fun R t ht hR => h R (he.2.2 R t ht hR)⟩
  | .poison e w, he => h _ he
  | .deep, _ => trivial
  | .ok .., he => he.elim
  | .fail .., he => he.elim

/-- From a position in the callee. -/
def CopyRuns (sem : Sem P V C W E) (tab' : Nat → Option Fn) (F body F' : Fn) (s : Splice) (d : Nat)
    (stc : Frame P V E) (b j : Nat) (m : Mem C W) (r : Out P V C W E) : Prop :=
  ∀ (st st' : Frame P V E) (d' n : Nat), d' < d → s.args.mapM st.view = some stc.params →
    stc.params.all View.passable → Inside F.next s.ren (errorFlow body) n stc st st' →
    Ends sem tab' F' s F.next d' n st
      (fun R => Run sem tab' (.code d' F' st' (s.base + b) j m) R) r

/-- From a position in the caller. -/
def CallerRuns (sem : Sem P V C W E) (tab' : Nat → Option Fn) (F F' : Fn) (site : Site)
    (calm : Nat → Prop) (d : Nat) (st : Frame P V E) (b j : Nat) (m : Mem C W)
    (r : Out P V C W E) : Prop :=
  ∀ (st' : Frame P V E) (d' b' j' : Nat), d' ≤ d → Pos F site b j b' j' → Same F.next st st' →
    (calm b → st.pending = none ∧ st.second = none) →
    Run sem tab' (.code d' F' st' b' j' m) r

/-- What is proved of every piece of execution. -/
def Kept (sem : Sem P V C W E) (tab' : Nat → Option Fn) (callee : Nat) (F body F' : Fn)
    (site : Site) (s : Splice) (calm : Nat → Prop) : Job P V C W E → Out P V C W E → Prop
  | .func d f args m, r => r ≠ .deep →
      (∀ d' ≤ d, Run sem tab' (.func d' f args m) r) ∧
      (f = callee → ∃ r0, r = r0.close m.env.length ∧ args.length = body.params ∧
        CopyRuns sem tab' F body F' s (d + 1) ⟨fun _ => none, args, none, none⟩ 0 0 m r0)
  | .prog d p, r => r ≠ .deep → ∀ d' ≤ d, Run sem tab' (.prog d' p) r
  | .exec d k data vs m, r => r ≠ .deep →
      (∀ d' ≤ d, Run sem tab' (.exec d' k data vs m) r) ∧
      (∀ args, k = .call → vs = .fn callee :: args → args.all View.passable ∧
        ∃ r0, r = (r0.close m.env.length).asOp ∧ args.length = body.params ∧
        CopyRuns sem tab' F body F' s (d + 1) ⟨fun _ => none, args, none, none⟩ 0 0 m r0)
  | .code d G st b j m, r => r ≠ .deep →
      (∀ d' ≤ d, Run sem tab' (.code d' G st b j m) r) ∧
      (G = F → CallerRuns sem tab' F F' site calm d st b j m r) ∧
      (G = body → CopyRuns sem tab' F body F' s d st b j m r)

theorem Out.close_deep {n : Nat} {r : Out P V C W E} : r.close n = .deep ↔ r = .deep := by
  cases r <;> simp [Out.close]

theorem Out.asOp_deep {r : Out P V C W E} : r.asOp = .deep ↔ r = .deep := by
  cases r <;> simp [Out.asOp]

theorem getElem?_lt {α : Type} {l : List α} {i : Nat} {a : α} (h : l[i]? = some a) :
    i < l.length := by
  rw [List.getElem?_eq_some_iff] at h
  exact h.1

theorem NamesBelow.op {F : Fn} (h : NamesBelow F) {b j : Nat} {blk : Block} {op : Op}
    (hb : F.blocks[b]? = some blk) (ho : blk.ops[j]? = some op) :
    (∀ o ∈ op.operands, o.below F.next) ∧ ∀ r, op.result = some r → r < F.next :=
  (h blk (List.mem_of_getElem? hb)).1 op (by simp [List.mem_of_getElem? ho])

theorem NamesBelow.invoked {F : Fn} (h : NamesBelow F) {b : Nat} {blk : Block} {op : Op}
    {n e : Nat} (hb : F.blocks[b]? = some blk) (ht : blk.term = .invoke op n e) :
    (∀ o ∈ op.operands, o.below F.next) ∧ ∀ r, op.result = some r → r < F.next :=
  (h blk (List.mem_of_getElem? hb)).1 op (by simp [ht, Term.invoked])

theorem Same.view {N : Nat} {st st' : Frame P V E} (h : Same N st st') {o : Operand}
    (ho : o.below N) : st'.view o = st.view o := by
  cases o with
  | reg r => exact h.agree r ho
  | param p => simp [Frame.view, h.params]
  | _ => rfl

theorem Same.set {N : Nat} {st st' : Frame P V E} (h : Same N st st') (r : Nat) (v : View P V) :
    Same N (st.set r v) (st'.set r v) := by
  refine ⟨fun q hq => ?_, h.params, h.pending, h.second⟩
  simp only [Frame.set]
  by_cases hqr : q = r
  · subst hqr; simp
  · rw [Function.update_of_ne hqr, Function.update_of_ne hqr]
    exact h.agree q hq

theorem Same.after {N : Nat} {st st' : Frame P V E} (h : Same N st st') {op : Op}
    (ho : ∀ o ∈ op.operands, o.below N) (backs : List V) (res : Option (View P V)) :
    Same N (st.after op backs res) (st'.after op backs res) := by
  have hw := writeBack_agree op.operands backs h.agree ho
  refine ⟨?_, h.params, h.pending, h.second⟩
  simp only [Frame.after]
  cases op.result with
  | none => exact hw
  | some r =>
    cases res with
    | none => exact hw
    | some v =>
      intro q hq
      simp only
      by_cases hqr : q = r
      · subst hqr; simp
      · rw [Function.update_of_ne hqr, Function.update_of_ne hqr]
        exact hw q hq

theorem Same.poison {N : Nat} {st st' : Frame P V E} (h : Same N st st') (e : E) :
    st'.poison sem e = st.poison sem e := by
  simp [Frame.poison, h.pending]

theorem Same.fail {N : Nat} {st st' st1 : Frame P V E} (h : Same N st st') {e : E}
    (hf : st.fail e = some st1) : ∃ st1', st'.fail e = some st1' ∧ Same N st1 st1' := by
  unfold Frame.fail at hf ⊢
  rw [h.pending, h.second]
  split at hf
  · cases hf
    exact ⟨_, rfl, h.agree, h.params, rfl, rfl⟩
  · cases hf
    exact ⟨_, rfl, h.agree, h.params, rfl, rfl⟩
  · exact absurd hf (by simp)

theorem Frame.after_nil (st : Frame P V E) (op : Op) : st.after op [] none = st := by
  have : writeBack st.slots op.operands ([] : List V) = st.slots := by
    cases h : op.operands with
    | nil => rfl
    | cons o os => cases o <;> rfl
  simp only [Frame.after, this]
  cases op.result <;> rfl

theorem Frame.set_same {N : Nat} {st st' : Frame P V E} (h : Same N st st') (v : View P V) :
    Same N st (st'.set N v) := by
  refine ⟨fun q hq => ?_, h.params, h.pending, h.second⟩
  simp only [Frame.set]
  rw [Function.update_of_ne (show q ≠ N by omega)]
  exact h.agree q hq

/-! ### Steps inside the copy -/

theorem ren_above (S : Setup tab tab' g callee F body F' site call s calm) {r r' : Reg}
    (h : s.ren r = some r') : F.next < r' := by
  rw [S.glue.ren] at h
  exact rename_above h

theorem ren_inj (S : Setup tab tab' g callee F body F' site call s calm) {r q r' : Reg}
    (h : s.ren r = some r') (h' : s.ren q = some r') : r = q := by
  rw [S.glue.ren] at h h'
  exact rename_inj h h'

theorem args_below (S : Setup tab tab' g callee F body F' site call s calm) :
    ∀ o ∈ s.args, o.below F.next := by
  intro o ho
  rw [S.glue.args] at ho
  have hm := List.mem_of_mem_drop ho
  have hc := S.glue.call_at
  cases site with
  | op b i =>
    obtain ⟨blk, hb, hi⟩ := hc
    exact (S.names.op hb hi).1 o hm
  | term b =>
    obtain ⟨blk, n, e, hb, ht⟩ := hc
    exact (S.names.invoked hb ht).1 o hm

theorem passed (S : Setup tab tab' g callee F body F' site call s calm) {st stc : Frame P V E}
    (hv : s.args.mapM st.view = some stc.params) (hp : stc.params.all View.passable) :
    Passed F.next st.slots s.args := by
  intro r hr
  refine ⟨args_below S _ hr, fun v hv' => ?_⟩
  obtain ⟨i, hi⟩ := List.getElem?_of_mem hr
  obtain ⟨w, hw, hw'⟩ := (mapM_getElem hv).2 i _ hi
  simp only [Frame.view] at hw
  rw [hv'] at hw
  cases hw
  have := List.all_eq_true.1 hp _ (List.mem_of_getElem? hw')
  simp [View.passable] at this

theorem Inside.after (S : Setup tab tab' g callee F body F' site call s calm) {flow : Bool} {n : Nat}
    {stc st st' : Frame P V E} (h : Inside F.next s.ren flow n stc st st')
    (hv : s.args.mapM st.view = some stc.params) (hp : stc.params.all View.passable)
    {op op' : Op} (ho : copyOp s.args s.ren op = some op') (backs : List V)
    (res : Option (View P V)) :
    Inside F.next s.ren flow n (stc.after op backs res) st (st'.after op' backs res) := by
  obtain ⟨-, -, hops, hres⟩ := copyOp_parts ho
  have hw := writeBack_copied (fun r r' => ren_above S) (fun r q r' => ren_inj S)
    (passed S hv hp) op.operands op'.operands backs h.copied hops
  refine ⟨?_, h.params, h.flows, h.still⟩
  simp only [Frame.after]
  cases hr : op.result with
  | none =>
    rw [hr] at hres
    simp only [copyResult, Option.some.injEq] at hres
    rw [← hres]
    exact hw
  | some r =>
    rw [hr] at hres
    simp only [copyResult, Option.map_eq_some_iff] at hres
    obtain ⟨r', hr', he⟩ := hres
    rw [← he]
    cases res with
    | none => exact hw
    | some v => exact hw.update (fun r r' => ren_above S) (fun r q r' => ren_inj S) hr' v

theorem Inside.set (S : Setup tab tab' g callee F body F' site call s calm) {flow : Bool} {n : Nat}
    {stc st st' : Frame P V E} (h : Inside F.next s.ren flow n stc st st') {r r' : Reg}
    (hr : s.ren r = some r') (v : View P V) :
    Inside F.next s.ren flow n (stc.set r v) st (st'.set r' v) :=
  ⟨h.copied.update (fun _ _ => ren_above S) (fun _ _ _ => ren_inj S) hr v, h.params, h.flows,
    h.still⟩

theorem Inside.poison {N : Nat} {ren : Reg → Option Reg} {flow : Bool} {n : Nat}
    {stc st st' : Frame P V E} (h : Inside N ren flow n stc st st') (e : E) :
    st'.poison sem e = st.poison sem (stc.poison sem e) := by
  cases flow with
  | true =>
    obtain ⟨h1, -, h3, -⟩ := h.flows rfl
    simp [Frame.poison, h1, h3]
  | false =>
    obtain ⟨h1, -, h3, -⟩ := h.still rfl
    simp [Frame.poison, h1, h3]

theorem Inside.view (S : Setup tab tab' g callee F body F' site call s calm) {flow : Bool} {n : Nat}
    {stc st st' : Frame P V E} (h : Inside F.next s.ren flow n stc st st')
    (hv : s.args.mapM st.view = some stc.params) {o o' : Operand}
    (ho : copyOperand s.args s.ren o = some o') {v : View P V} (hvo : stc.view o = some v) :
    st'.view o' = some v :=
  view_copy h.copied h.params (args_below S) hv ho hvo

theorem Inside.views (S : Setup tab tab' g callee F body F' site call s calm) {flow : Bool}
    {n : Nat} {stc st st' : Frame P V E} (h : Inside F.next s.ren flow n stc st st')
    (hv : s.args.mapM st.view = some stc.params) {op op' : Op}
    (ho : copyOp s.args s.ren op = some op') {vs : List (View P V)}
    (hvs : op.operands.mapM stc.view = some vs) : op'.operands.mapM st'.view = some vs :=
  view_mapM_copy h.copied h.params (args_below S) hv _ _ _ (copyOp_parts ho).2.2.1 hvs

theorem errorFlow_of {body : Fn} {b : Nat} {blk : Block} (hb : body.blocks[b]? = some blk)
    (ht : blk.term.errorFlow = true) : errorFlow body = true := by
  unfold errorFlow
  rw [List.any_eq_true]
  exact ⟨blk, List.mem_of_getElem? hb, ht⟩

theorem Same.of_inside {n : Nat} {N : Nat} {ren : Reg → Option Reg}
    {stc st st' : Frame P V E} {flow : Bool} (h : Inside N ren flow n stc st st')
    (hp : stc.pending = none) (hs : stc.second = none) : Same N st st' := by
  refine ⟨h.copied.agree, h.params, ?_, ?_⟩
  · cases flow with
    | true => obtain ⟨h1, -, h3, -⟩ := h.flows rfl; rw [h3, hp, h1]
    | false => exact (h.still rfl).2.2.1
  · cases flow with
    | true => obtain ⟨-, h1, -, h3⟩ := h.flows rfl; rw [h3, hs, h1]
    | false => exact (h.still rfl).2.2.2

end

end Ferlium.Inline
