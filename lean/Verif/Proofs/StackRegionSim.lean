import Verif.Proofs.StackRegionPlan
import Verif.Proofs.MergeSim

/-! Executions of a body and of the body without redundant stack markers. -/
namespace Ferlium.StackRegion

open Ferlium.Mir Ferlium.Edit Ferlium.Dominance Ferlium.Graph
open Ferlium.Cse (OnRun UsedAt Jumps Stable merge_same DefsFirst before_trans' lookup_mem)
open Ferlium.Negation (Site opAt opAt_some opAt_mem Before before_iff before_irrefl before_op before_jump not_before_start site_unique)

variable {V σ : Type} {W : World V σ} {f : Body} {st : States}

/-! ### Assumptions on the world -/

/-- The operation may put cells on the stack of the running body or remove some: it allocates, opens or closes a
projection, materializes a dictionary entry or a member of a subscript, drops a value, or calls something with a
subscript. -/
def Grows (op : Op) : Prop :=
  (∃ t, op.kind = .alloca t) ∨ (∃ t, op.kind = .allocaPlace t) ∨ (∃ t, op.kind = .project t) ∨ op.kind = .endProject ∨
  (∃ d, op.kind = .dictEntry d) ∨ (∃ d, op.kind = .subscriptMember d) ∨ (∃ t, op.kind = .drop t) ∨
  ((∃ t n, op.kind = .call t n) ∧ ∃ i, Value.subscript i ∈ op.operands)

/-- A stack: the number of cells in a state of the world, and the value of the marker of a position. -/
structure Stack (W : World V σ) (frontier : σ → Nat) (mark : Nat → V) : Prop where
  save : ∀ w, W.exec .stackSave [] w = .ok w (some (mark (frontier w))) none
  /-- A restore cuts the stack down to the marker. -/
  back : ∀ w n, n ≤ frontier w → ∃ w', W.exec .stackRestore [.value (mark n)] w = .ok w' none none ∧ frontier w' = n
  /-- Nothing happens if the stack has this height already. -/
  here : ∀ w, W.exec .stackRestore [.value (mark (frontier w))] w = .ok w none none
  expose : ∀ c w, frontier (W.expose c w).2 = frontier w
  consume : ∀ v w, frontier (W.consume v w) = frontier w
  yield : ∀ v w w', W.yield v w = some w' → frontier w' = frontier w

/-- The operations of a body, with those of the terminators. -/
def AllOps (f : Body) (op : Op) : Prop := ∃ b ∈ f, op ∈ b.ops ∨ ∃ n e, b.term = .invoke op n e

/-- The other operations leave the stack as it is. -/
def Quiet (W : World V σ) (frontier : σ → Nat) (f : Body) : Prop :=
  ∀ op, AllOps f op → op.kind ≠ .stackSave → op.kind ≠ .stackRestore → ¬ Grows op →
    ∀ (s : St V σ) args, argsFrom W op.readsWhole s 0 op.operands = some args →
      (∀ w r c, W.exec op.kind args s.world = .ok w r c → frontier w = frontier s.world) ∧
      (∀ w, W.exec op.kind args s.world = .error w → frontier w = frontier s.world)

/-- Saves take nothing, restores take a register and give nothing, and neither is invoked: rules of the verifier. -/
structure Markers (f : Body) : Prop where
  saves : ∀ b ∈ f, ∀ op ∈ b.ops, op.kind = .stackSave → op.operands = []
  restores : ∀ b ∈ f, ∀ op ∈ b.ops, op.kind = .stackRestore → op.result = none ∧ ∃ m, op.operands = [.register m]
  invokes : ∀ b ∈ f, ∀ op n e, b.term = .invoke op n e → op.kind ≠ .stackSave ∧ op.kind ≠ .stackRestore

/-- Regions are nested: whenever the body restores a marker, the stack is at least as high as when it was saved. -/
def Nested (W : World V σ) (frontier : σ → Nat) (mark : Nat → V) (f : Body) (w : σ) : Prop :=
  ∀ p s op m, OnRun W f w p s → opAt f p = some op → op.kind = .stackRestore → op.operands = [.register m] →
    ∃ n, s.env m = some (.value (mark n) false) ∧ n ≤ frontier s.world

theorem leaves_iff (op : Op) : leaves op = true ↔ Grows op := by
  unfold leaves Grows
  cases hk : op.kind <;> simp
  constructor
  · rintro ⟨v, h1, h2⟩
    cases v <;> simp at h2
    exact ⟨_, h1⟩
  · rintro ⟨i, h⟩
    exact ⟨_, h, rfl⟩

/-! ### Single operations -/

variable {frontier : σ → Nat} {mark : Nat → V} {s s1 : St V σ}

theorem exposeOne_frontier (hS : Stack W frontier mark) (v : Value) : frontier (exposeOne W s v).world = frontier s.world := by
  unfold exposeOne
  split
  · split
    · exact hS.expose _ _
    · rfl
  · rfl

theorem exposeFrom_frontier (hS : Stack W frontier mark) {direct : Nat → Bool} (vs : List Value) : ∀ (i : Nat) (s : St V σ),
    frontier (exposeFrom W direct i vs s).world = frontier s.world := by
  induction vs with
  | nil => intro i s; rfl
  | cons v vs ih =>
    intro i s
    unfold exposeFrom
    rw [ih]
    split
    · rfl
    · exact exposeOne_frontier hS v

theorem writeCell_world (s : St V σ) (v : Option Value) (c : Option V) : (writeCell s v c).world = s.world := by
  unfold writeCell
  repeat' split
  all_goals rfl

theorem bindResult_world (op : Op) (v : Option V) (s : St V σ) : (bindResult op v s).world = s.world := by
  unfold bindResult
  split <;> rfl

theorem consumeSource_frontier (hS : Stack W frontier mark) (s : St V σ) (v : Option Value) :
    frontier (consumeSource W s v).world = frontier s.world := by
  unfold consumeSource
  split
  · split
    · exact hS.consume _ _
    · rfl
  · rfl

theorem execOp_frontier (hS : Stack W frontier mark) (hQ : Quiet W frontier f) {direct : Nat → Bool} {op : Op} (hop : AllOps f op)
    (h1 : op.kind ≠ .stackSave) (h2 : op.kind ≠ .stackRestore) (hg : leaves op = false)
    (he : (execOp W direct op s).Cont s1) : frontier s1.world = frontier s.world := by
  have hg' : ¬ Grows op := fun h => by rw [(leaves_iff op).2 h] at hg; cases hg
  rw [← exposeFrom_frontier hS (direct := direct) op.operands 0 s]
  unfold execOp at he
  simp only [] at he
  split at he
  · exact he.elim
  rename_i args hargs
  generalize exposeFrom W direct 0 op.operands s = s2 at hargs he
  obtain ⟨hok, herr⟩ := hQ op hop h1 h2 hg' s2 args hargs
  have hres : ∀ v, frontier (bindResult op v s2).world = frontier s2.world := fun v => by rw [bindResult_world]
  unfold execArgs at he
  split at he
  · cases he; exact hres _
  · exact he.elim
  · split at he
    · cases he; exact hres _
    · exact he.elim
  · split at he
    · cases he; exact hres _
    · exact he.elim
  · exact he.elim
  · cases he
    rw [writeCell_world]
    exact consumeSource_frontier hS _ _
  · unfold worldOp at he
    split at he
    · rename_i w r c hx
      cases he
      rw [← hok w r c hx]
      congr 1
      unfold bindOut
      have : (applyWrite op c (applyMove op { s2 with world := w })).world = w := by
        unfold applyWrite applyMove
        repeat' split
        all_goals simp only [writeCell_world]
      split
      · split
        · exact this
        · exact this
      · rw [bindResult_world]; exact this
    · rename_i w hx
      cases he
      exact herr w hx
    · exact he.elim

theorem execOp_save (hS : Stack W frontier mark) {op : Op} (hk : op.kind = .stackSave) (ho : op.operands = []) (s : St V σ) :
    execOp W op.direct op s = .ok (bindResult op (some (mark (frontier s.world))) s) := by
  unfold execOp
  rw [ho]
  simp only [exposeFrom, argsFrom]
  unfold execArgs
  rw [hk]
  simp only [worldOp, hk, hS.save, applyWrite, applyMove, bindOut, Op.writeIndex]
  rfl

theorem execOp_restore {op : Op} (hk : op.kind = .stackRestore) {m : Nat} (ho : op.operands = [.register m]) (hr : op.result = none)
    {v : V} (hv : s.env m = some (.value v false)) {w' : σ} (hx : W.exec .stackRestore [.value v] s.world = .ok w' none none) :
    execOp W op.direct op s = .ok { s with world := w' } := by
  unfold execOp
  have he : exposeFrom W op.direct 0 op.operands s = s := by
    rw [ho]
    simp only [exposeFrom, exposeOne, hv]
    split <;> rfl
  simp only [he]
  have ha : argsFrom W op.readsWhole s 0 op.operands = some [.value v] := by
    rw [ho]
    simp only [argsFrom, argOf, hv]
  rw [ha]
  simp only []
  unfold execArgs
  rw [hk]
  simp only [worldOp, hk, hx, applyWrite, applyMove, bindOut, Op.writeIndex, bindResult, hr]
  rfl

/-! ### The invariant -/

/-- What holds at a point of an execution of the original body. -/
structure MarkInv (frontier : σ → Nat) (mark : Nat → V) (f : Body) (st : States) (pl : Plan) (p : Site) (s : St V σ) : Prop where
  known : ∃ S, stateAt f st p = some S ∧ ∀ m ∈ S, s.env m = some (.value (mark (frontier s.world)) false)
  same : ∀ x c, (x, c) ∈ pl.subst → ∀ d op, opAt f d = some op → op.result = some x → Before f d p →
    ∃ v, s.env x = some (.value v false) ∧ s.env c = some (.value v false)

theorem le_of_opAt {p : Site} {op : Op} (h : opAt f p = some op) : ∀ blk, f[p.block]? = some blk → p.index ≤ blk.ops.length := by
  intro blk hb
  obtain ⟨blk', h1, h2⟩ := opAt_some.1 h
  rw [hb] at h1
  cases h1
  exact (List.getElem?_eq_some_iff.1 h2).1.le

theorem allOps_of {p : Site} {op : Op} (h : opAt f p = some op) : AllOps f op := by
  obtain ⟨b, h1, h2⟩ := opAt_mem h
  exact ⟨b, h1, Or.inl h2⟩

/-- Pairs which are equal stay equal across an operation. -/
theorem same_step (hs : SingleAssignment f) (hc : Closed f st) {pl : Plan} (hp : PlanOk f st pl) {b i : Nat} {op : Op}
    (hop : opAt f ⟨b, i⟩ = some op) (hreach : Reachable f b) (hI : MarkInv frontier mark f st pl ⟨b, i⟩ s)
    (he : (execOp W op.direct op s).Cont s1) {x c : Nat} (hx : (x, c) ∈ pl.subst) {d : Site} {op' : Op} (hd : opAt f d = some op')
    (hr : op'.result = some x) (hb : Before f d ⟨b, i⟩) :
    ∃ v, s1.env x = some (.value v false) ∧ s1.env c = some (.value v false) := by
  obtain ⟨v, h1, h2⟩ := hI.same x c hx d op' hd hr hb
  refine ⟨v, execOp_value h1 ?_ he, execOp_value h2 ?_ he⟩
  · intro hr'
    obtain ⟨rfl, _⟩ := site_unique hs hd hop hr hr'
    exact before_irrefl _ hb
  · intro hr'
    obtain ⟨q, o, S, h, e1, e2, e3, e4, e5, e6, e7⟩ := hp.pairs x c hx
    obtain ⟨rfl, _⟩ := site_unique hs e1 hd e3 hr
    exact before_irrefl _ (before_trans' hreach (e7 _ op hop hr') hb)

/-- The invariant after a save. -/
theorem inv_save (hS : Stack W frontier mark) (hs : SingleAssignment f) (hd : DefsFirst f) (hc : Closed f st) {pl : Plan}
    (hp : PlanOk f st pl) {b i : Nat} {op : Op} (hop : opAt f ⟨b, i⟩ = some op) (hreach : Reachable f b)
    (hk : op.kind = .stackSave) (ho : op.operands = []) (hI : MarkInv frontier mark f st pl ⟨b, i⟩ s) :
    MarkInv frontier mark f st pl ⟨b, i + 1⟩ (bindResult op (some (mark (frontier s.world))) s) := by
  have he := execOp_save hS hk ho s
  have hcont : (execOp W op.direct op s).Cont (bindResult op (some (mark (frontier s.world))) s) := by rw [he]; rfl
  have hown : op.owned = false := by unfold Op.owned; rw [hk]
  obtain ⟨S, h1, h2⟩ := hI.known
  constructor
  · refine ⟨_, stateAt_next h1 hop, ?_⟩
    intro m hm
    rw [bindResult_world]
    rcases (adv_save hk).1 (mem_step.1 hm) with h | h
    · unfold bindResult
      rw [h]
      simp [St.set, hown]
    · exact execOp_value (h2 m h) (fun hr => before_irrefl _ (known_before hs hd hc h1 (le_of_opAt hop) h hop hr)) hcont
  · intro x c hx d op' hd' hr hb
    rcases before_op hb with rfl | hb
    · rw [hop] at hd'
      cases hd'
      obtain ⟨q, o, S', h, e1, e2, e3, e4, e5, e6, e7⟩ := hp.pairs x c hx
      obtain ⟨rfl, _⟩ := site_unique hs e1 hop e3 hr
      rw [h1] at e4
      cases e4
      have hh := h2 h (List.mem_of_mem_head? e5)
      have hval : s.env c = some (.value (mark (frontier s.world)) false) := by
        rcases e6 with rfl | e6
        · exact hh
        · obtain ⟨q', o', _, _, g1, _, g3, _⟩ := hp.pairs h c e6
          obtain ⟨v, h3, h4⟩ := hI.same h c e6 q' o' g1 g3
            (known_before hs hd hc h1 (le_of_opAt hop) (List.mem_of_mem_head? e5) g1 g3)
          rw [hh] at h3
          cases h3
          exact h4
      refine ⟨mark (frontier s.world), ?_, execOp_value hval ?_ hcont⟩
      · unfold bindResult
        rw [hr]
        simp [St.set, hown]
      · intro hr'
        rw [hr] at hr'
        cases hr'
        exact hp.final _ _ hx _ hx
    · exact same_step hs hc hp hop hreach hI hcont hx hd' hr hb

/-- The invariant after a restore. -/
theorem inv_restore (hS : Stack W frontier mark) (hs : SingleAssignment f) (hc : Closed f st) {pl : Plan}
    (hp : PlanOk f st pl) {b i : Nat} {op : Op} (hop : opAt f ⟨b, i⟩ = some op) (hreach : Reachable f b)
    (hk : op.kind = .stackRestore) {m : Nat} (ho : op.operands = [.register m]) (hr : op.result = none)
    (hn : ∃ n, s.env m = some (.value (mark n) false) ∧ n ≤ frontier s.world) (hI : MarkInv frontier mark f st pl ⟨b, i⟩ s) :
    ∃ w', execOp W op.direct op s = .ok { s with world := w' } ∧ MarkInv frontier mark f st pl ⟨b, i + 1⟩ { s with world := w' } ∧
      ∀ S, stateAt f st ⟨b, i⟩ = some S → m ∈ S → w' = s.world := by
  obtain ⟨S, h1, h2⟩ := hI.known
  have hrest : restored op = some m := by unfold restored; rw [ho]; rfl
  have hold : ∀ w', execOp W op.direct op s = .ok { s with world := w' } → ∀ x c, (x, c) ∈ pl.subst → ∀ d op', opAt f d = some op' →
      op'.result = some x → Before f d ⟨b, i + 1⟩ → ∃ v, s.env x = some (.value v false) ∧ s.env c = some (.value v false) := by
    intro w' he x c hx d op' hd' hr' hb
    rcases before_op hb with rfl | hb
    · rw [hop] at hd'
      cases hd'
      rw [hr] at hr'
      cases hr'
    · exact same_step (s1 := { s with world := w' }) hs hc hp hop hreach hI (by rw [he]; rfl) hx hd' hr' hb
  by_cases hm : m ∈ S
  · have he := execOp_restore hk ho hr (h2 m hm) (hS.here s.world)
    refine ⟨s.world, he, ⟨⟨_, stateAt_next h1 hop, ?_⟩, hold _ he⟩, fun _ _ _ => rfl⟩
    intro x hx
    rcases (adv_restore hk).1 (mem_step.1 hx) with h | ⟨_, h⟩
    · rw [hrest] at h
      cases h
      exact h2 _ hm
    · exact h2 x h
  · obtain ⟨n, hv, hle⟩ := hn
    obtain ⟨w', hx, hw'⟩ := hS.back s.world n hle
    have he := execOp_restore hk ho hr hv hx
    refine ⟨w', he, ⟨⟨_, stateAt_next h1 hop, ?_⟩, hold _ he⟩, ?_⟩
    · intro x hx
      rcases (adv_restore hk).1 (mem_step.1 hx) with h | ⟨h, _⟩
      · rw [hrest] at h
        cases h
        show s.env m = some (.value (mark (frontier w')) false)
        rw [hw']
        exact hv
      · exact absurd (h m hrest) hm
    · intro S' h3 h4
      rw [h1] at h3
      cases h3
      exact absurd h4 hm

/-- The invariant after another operation. -/
theorem inv_other (hS : Stack W frontier mark) (hQ : Quiet W frontier f) (hs : SingleAssignment f) (hd : DefsFirst f)
    (hc : Closed f st) {pl : Plan} (hp : PlanOk f st pl) {b i : Nat} {op : Op} (hop : opAt f ⟨b, i⟩ = some op)
    (hreach : Reachable f b) (hk1 : op.kind ≠ .stackSave) (hk2 : op.kind ≠ .stackRestore)
    (hI : MarkInv frontier mark f st pl ⟨b, i⟩ s) (he : (execOp W op.direct op s).Cont s1) :
    MarkInv frontier mark f st pl ⟨b, i + 1⟩ s1 := by
  obtain ⟨S, h1, h2⟩ := hI.known
  constructor
  · refine ⟨_, stateAt_next h1 hop, ?_⟩
    intro m hm
    obtain ⟨hl, hm⟩ := (adv_other hk1 hk2).1 (mem_step.1 hm)
    rw [execOp_frontier hS hQ (allOps_of hop) hk1 hk2 hl he]
    exact execOp_value (h2 m hm) (fun hr => before_irrefl _ (known_before hs hd hc h1 (le_of_opAt hop) hm hop hr)) he
  · intro x c hx d op' hd' hr hb
    rcases before_op hb with rfl | hb
    · rw [hop] at hd'
      cases hd'
      obtain ⟨q, o, S', h, e1, e2, e3, _⟩ := hp.pairs x c hx
      obtain ⟨rfl, rfl⟩ := site_unique hs e1 hop e3 hr
      exact absurd e2 hk1
    · exact same_step hs hc hp hop hreach hI he hx hd' hr hb

theorem stable_remove (hS : Stack W frontier mark) (hQ : Quiet W frontier f) (hr : InRange f) (hne : f ≠ []) (hs : SingleAssignment f)
    (hd : DefsFirst f) (hM : Markers f) (hc : Closed f st) {pl : Plan} (hp : PlanOk f st pl) {w : σ}
    (hN : Nested W frontier mark f w) :
    Stable W f w ⟨[], pl.subst, pl.dead⟩ (MarkInv (V := V) frontier mark f st pl) := by
  have hfinal : ∀ r c, pl.subst.lookup r = some c → pl.subst.lookup c = none :=
    fun r c h => lookup_none_iff.2 (hp.final r c (lookup_mem h))
  have hreach : ∀ {b i : Nat} {s : St V σ}, MarkInv frontier mark f st pl ⟨b, i⟩ s → Reachable f b := by
    intro b i s h
    obtain ⟨S, h1, _⟩ := h.known
    obtain ⟨_, e, _, h2, _⟩ := stateAt_some.1 h1
    exact (closed_some hc).1 ⟨e, h2⟩
  have hins : ∀ {b i : Nat} {op : Op}, opAt f ⟨b, i⟩ = some op → ∃ blk ∈ f, op ∈ blk.ops := fun h => opAt_mem h
  refine ⟨?_, ?_, ?_, ?_, ?_⟩
  · have h0 : ∃ blk, f[0]? = some blk := ⟨f[0]'(List.length_pos_iff.2 hne), List.getElem?_eq_getElem _⟩
    obtain ⟨blk, h0⟩ := h0
    refine ⟨⟨[], stateAt_start h0 hc.entry, by simp⟩, ?_⟩
    intro x c _ d op _ _ hb
    exact (not_before_start hb).elim
  · intro p s hI r c hu hl
    have hx := lookup_mem hl
    refine ⟨hfinal r c hl, ?_⟩
    obtain ⟨q, op, S, h, e1, e2, e3, _⟩ := hp.pairs r c hx
    refine hI.same r c hx q op e1 e3 ?_
    rcases hu with ⟨o, h1, h2⟩ | ⟨blk, h1, h2, h3⟩
    · exact hd.ops p o r h1 h2 q op e1 e3
    · obtain ⟨pb, pi⟩ := p
      simp only [] at h1 h2
      subst h2
      exact hd.terms pb blk r h1 h3 q op e1 e3
  · intro b i op s s1 hop _ hon hI he
    obtain ⟨blk, hb, hm⟩ := hins hop
    by_cases hk1 : op.kind = .stackSave
    · have := execOp_save hS hk1 (hM.saves blk hb op hm hk1) s
      rw [this] at he
      cases he
      exact inv_save hS hs hd hc hp hop (hreach hI) hk1 (hM.saves blk hb op hm hk1) hI
    by_cases hk2 : op.kind = .stackRestore
    · obtain ⟨hr, m, ho⟩ := hM.restores blk hb op hm hk2
      obtain ⟨w', h1, h2, _⟩ := inv_restore hS hs hc hp hop (hreach hI) hk2 ho hr (hN _ s op m hon hop hk2 ho) hI
      rw [h1] at he
      cases he
      exact h2
    · exact inv_other hS hQ hs hd hc hp hop (hreach hI) hk1 hk2 hI (by rw [he]; rfl)
  · intro b i op s hop hdead hon hI _
    obtain ⟨blk, hb, hm⟩ := hins hop
    obtain ⟨o, S, h1, h2, h3⟩ := (hp.dead b i).1 hdead
    rw [hop] at h1
    cases h1
    rcases h3 with ⟨hk, hres, hne⟩ | ⟨hk, m, hrest, hmem⟩
    · refine ⟨_, execOp_save hS hk (hM.saves blk hb op hm hk) s,
        inv_save hS hs hd hc hp hop (hreach hI) hk (hM.saves blk hb op hm hk) hI, bindResult_world _ _ _, ?_⟩
      intro r hl
      apply bindResult_frame
      intro hr
      obtain ⟨c, hx⟩ := hp.keys _ op S r hop hk hr h2 hne
      exact lookup_none_iff.1 hl c hx
    · obtain ⟨hr, m', ho⟩ := hM.restores blk hb op hm hk
      obtain ⟨w', e1, e2, e3⟩ := inv_restore hS hs hc hp hop (hreach hI) hk ho hr (hN _ s op m' hon hop hk ho) hI
      have : m = m' := by
        unfold restored at hrest
        rw [ho] at hrest
        cases hrest
        rfl
      subst this
      exact ⟨_, e1, e2, e3 S h2 hmem, fun _ _ => rfl⟩
  · intro b blk s b' s1 hb hon hI hsucc hj
    obtain ⟨S, h1, h2⟩ := hI.known
    obtain ⟨e, h3, h4⟩ := stateAt_end hb h1
    obtain ⟨e', h5, h6⟩ := hc.closed b blk e hb h3 b' hsucc
    have hlt : b' < f.length := hr blk (List.mem_of_getElem? hb) b' hsucc
    have hsame : (∀ q v, s.env q = some (.value v false) → s1.env q = some (.value v false)) →
        ∀ x c, (x, c) ∈ pl.subst → ∀ d op, opAt f d = some op → op.result = some x → Before f d ⟨b', 0⟩ →
          ∃ v, s1.env x = some (.value v false) ∧ s1.env c = some (.value v false) := by
      intro hv x c hx d op hd' hr' hbef
      obtain ⟨v, g1, g2⟩ := hI.same x c hx d op hd' hr' (before_jump hd' hb hsucc hbef)
      exact ⟨v, hv _ _ g1, hv _ _ g2⟩
    have hstart : stateAt f st ⟨b', 0⟩ = some e' := stateAt_start (List.getElem?_eq_getElem hlt) h5
    have hplain : (∀ op n x, blk.term ≠ .invoke op n x) → frontier s1.world = frontier s.world →
        (∀ q v, s.env q = some (.value v false) → s1.env q = some (.value v false)) → MarkInv frontier mark f st pl ⟨b', 0⟩ s1 := by
      intro hni hf hv
      refine ⟨⟨e', hstart, ?_⟩, hsame hv⟩
      intro m hm
      have hm := h6 m hm
      rw [h4] at hm
      have : invoked blk.term = [] := by
        unfold invoked
        split
        · exact (hni _ _ _ (by assumption)).elim
        · rfl
      rw [this] at hm
      rw [hf]
      exact hv _ _ (h2 m hm)
    cases ht : blk.term with
    | goto t =>
      rw [ht] at hj
      obtain ⟨_, rfl⟩ := hj
      exact hplain (by rw [ht]; simp) rfl (fun _ _ h => h)
    | condBr c x y =>
      rw [ht] at hj
      obtain ⟨_, rfl⟩ := hj
      exact hplain (by rw [ht]; simp) rfl (fun _ _ h => h)
    | yield v r =>
      rw [ht] at hj
      obtain ⟨_, x, w', hw, rfl⟩ := hj
      refine hplain (by rw [ht]; simp) ?_ (fun _ _ h => exposeOne_value h)
      show frontier w' = _
      rw [hS.yield _ _ _ hw]
      exact exposeOne_frontier hS v
    | ret => rw [ht] at hj; exact hj.elim
    | propagateError => rw [ht] at hj; exact hj.elim
    | cleanupFailure => rw [ht] at hj; exact hj.elim
    | invoke op n x =>
      rw [ht] at hj
      have hmem := List.mem_of_getElem? hb
      have hres : op.result = none := hs.2 blk hmem op n x ht
      obtain ⟨hk1, hk2⟩ := hM.invokes blk hmem op n x ht
      have hcont : (execOp W (fun _ => false) op s).Cont s1 := by
        rcases hj with ⟨h, _⟩ | ⟨h, _⟩ <;> rw [h] <;> rfl
      have hv : ∀ q v, s.env q = some (.value v false) → s1.env q = some (.value v false) :=
        fun q v h => execOp_value h (by rw [hres]; simp) hcont
      refine ⟨⟨e', hstart, ?_⟩, hsame hv⟩
      intro m hm
      have hm := h6 m hm
      rw [h4, ht] at hm
      simp only [invoked, steps, List.foldl_cons, List.foldl_nil] at hm
      obtain ⟨hl, hm⟩ := (adv_other hk1 hk2).1 (mem_step.1 hm)
      rw [execOp_frontier hS hQ ⟨blk, hmem, Or.inr ⟨n, x, ht⟩⟩ hk1 hk2 hl hcont]
      exact hv _ _ (h2 m hm)

theorem remove_same (hS : Stack W frontier mark) (hQ : Quiet W frontier f) (hr : InRange f) (hne : f ≠ []) (hs : SingleAssignment f)
    (hd : DefsFirst f) (hM : Markers f) (hc : Closed f st) {pl : Plan} (hp : PlanOk f st pl) {w : σ}
    (hN : Nested W frontier mark f w) (hsafe : Safe W f w) : SameBehaviour W f (rewrite pl f) w :=
  merge_same (stable_remove hS hQ hr hne hs hd hM hc hp hN) hsafe

end Ferlium.StackRegion
