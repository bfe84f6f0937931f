import Verif.Proofs.DeadStore
import Verif.Proofs.SpecTable

/-! The simulation between a body and the body without its dead stores. -/
namespace Ferlium.Mir

theorem eq_of_filterMap_nodup {α β : Type} {g : α → Option β} : ∀ {l : List α}, (l.filterMap g).Nodup →
    ∀ {x y : α} {r : β}, x ∈ l → y ∈ l → g x = some r → g y = some r → x = y := by
  intro l
  induction l with
  | nil => intro _ x y r hx; cases hx
  | cons a l ih =>
    intro h x y r hx hy gx gy
    have hl : (l.filterMap g).Nodup := by
      rw [List.filterMap_cons] at h
      split at h
      · exact h
      · exact (List.nodup_cons.1 h).2
    have hn : ∀ z ∈ l, g z = some r → g a = some r → False := by
      intro z hz gz ga
      rw [List.filterMap_cons, ga] at h
      exact (List.nodup_cons.1 h).1 (List.mem_filterMap.2 ⟨z, hz, gz⟩)
    rcases List.mem_cons.1 hx with rfl | hx' <;> rcases List.mem_cons.1 hy with rfl | hy'
    · rfl
    · exact (hn y hy' gy gx).elim
    · exact (hn x hx' gx gy).elim
    · exact ih hl hx' hy' gx gy

/-- In a body with single assignment a register has one definition. -/
theorem SingleAssignment.unique {f : Body} (h : SingleAssignment f) {b b' : Block} {op op' : Op} {r : Nat}
    (hb : b ∈ f) (hb' : b' ∈ f) (ho : op ∈ b.ops) (ho' : op' ∈ b'.ops) (hr : op.result = some r)
    (hr' : op'.result = some r) : op = op' := by
  have h1 : results f = (f.flatMap Block.ops).filterMap Op.result := by
    unfold results Block.results
    rw [List.filterMap_flatMap]
  have h2 := h.1
  rw [h1] at h2
  exact eq_of_filterMap_nodup h2 (List.mem_flatMap.2 ⟨b, hb, ho⟩) (List.mem_flatMap.2 ⟨b', hb', ho'⟩) hr hr'

end Ferlium.Mir

namespace Ferlium.DeadStore

open Ferlium.Mir

variable {V σ : Type} {W : World V σ} {f : Body} {trivial : Nat → Bool}

theorem mem_allocas {r : Nat} (h : r ∈ allocas trivial f) : IsAlloca f r := by
  simp only [allocas, List.mem_toFinset, List.mem_flatMap, List.mem_filterMap] at h
  obtain ⟨b, hb, op, hop, h⟩ := h
  unfold candidateOf at h
  split at h
  · rename_i ty hk
    split at h
    · exact ⟨b, hb, op, hop, h, ty, hk⟩
    · cases h
  · cases h

theorem mem_consuming {r : Nat} {b : Block} {op : Op} (hb : b ∈ f) (ho : op ∈ b.ops) (h : op.owned = true)
    (hr : op.result = some r) : r ∈ consuming f := by
  simp only [consuming, List.mem_toFinset, List.mem_flatMap, List.mem_filterMap, List.mem_filter]
  exact ⟨b, hb, op, ⟨ho, h⟩, hr⟩

theorem wholePlaceWrite_eq (op : Op) : wholePlaceWrite op = op.writeIndex := rfl

theorem exactRead_reads {op : Op} {i : Nat} (h : exactRead op i = true) : op.readsWhole i = true := by
  unfold exactRead at h
  unfold Op.readsWhole
  split at h <;> simp_all

/-- The bindings which occur. -/
def Fits (trivial : Nat → Bool) (f : Body) (r : Nat) (b : Option (Bind V)) : Prop :=
  (r ∈ candidates trivial f → b = none ∨ ∃ c, b = some (.cell c)) ∧
  (∀ c, b = some (.cell c) → IsAlloca f r) ∧
  (∀ v, b = some (.value v true) → r ∈ consuming f)

theorem bodyKeeps (hs : SingleAssignment f) : BodyKeeps (Fits (V := V) trivial f) f := by
  have key : ∀ b ∈ f, ∀ op ∈ b.ops, ∀ r, op.result = some r → (∀ ty, op.kind ≠ .alloca ty) →
      r ∉ candidates trivial f := by
    intro b hb op hop r hr hk hc
    obtain ⟨b', hb', op', hop', hr', ty, hk'⟩ := mem_allocas (mem_candidates hc).1
    rw [hs.unique hb hb' hop hop' hr hr'] at hk
    exact hk ty hk'
  refine ⟨?_, ?_, ?_⟩
  · intro b hb op hop
    refine ⟨?_, ?_, ?_, ?_, ?_⟩
    · intro r; exact ⟨fun _ => Or.inl rfl, by simp, by simp⟩
    · rintro r c c' ⟨_, h2, _⟩
      exact ⟨fun _ => Or.inr ⟨c', rfl⟩, fun _ _ => h2 c rfl, by simp⟩
    · rintro i r c v hi hd ⟨h1, _, _⟩
      refine ⟨fun hc => ?_, by simp, by simp⟩
      exfalso
      have := ((mem_candidates hc).2 b hb).1 op hop i hi
      rw [wholePlaceWrite_eq] at this
      unfold Op.direct at hd
      rcases this with h | h
      · simp [h] at hd
      · simp [exactRead_reads h] at hd
    · intro r v hr hk
      refine ⟨fun hc => absurd hc (key b hb op hop r hr hk), by simp, ?_⟩
      intro v' hv
      simp only [Option.some.injEq, Bind.value.injEq] at hv
      exact mem_consuming hb hop hv.2 hr
    · intro r ty hr hk
      exact ⟨fun _ => Or.inr ⟨none, rfl⟩, fun _ _ => ⟨b, hb, op, hop, hr, ty, hk⟩, by simp⟩
  · intro b hb op n e ht
    have hres := hs.2 b hb op n e ht
    refine ⟨?_, ?_, ?_, ?_, ?_⟩
    · intro r; exact ⟨fun _ => Or.inl rfl, by simp, by simp⟩
    · rintro r c c' ⟨_, h2, _⟩
      exact ⟨fun _ => Or.inr ⟨c', rfl⟩, fun _ _ => h2 c rfl, by simp⟩
    · rintro i r c v hi hd _
      refine ⟨fun hc => ?_, by simp, by simp⟩
      exact absurd (by rw [ht]; exact List.mem_of_getElem? hi) ((mem_candidates hc).2 b hb).2
    · intro r v hr; rw [hres] at hr; cases hr
    · intro r ty hr; rw [hres] at hr; cases hr
  · intro b hb r k ht c w _
    refine ⟨fun hc => ?_, by simp, by simp⟩
    exact absurd (by rw [ht]; simp [Term.operands]) ((mem_candidates hc).2 b hb).2

theorem dead_spec {c k live : Finset Nat} {op : Op} (h : dead c k live op = true) :
    op.kind = .store ∧ (∀ r, op.operands.head? = some (.register r) → r ∉ k) ∧
      ∃ r, op.operands[1]? = some (.register r) ∧ r ∈ c ∧ r ∉ live := by
  unfold dead at h
  split at h
  · rename_i root hw
    simp only [Bool.and_eq_true, decide_eq_true_eq, Bool.not_eq_true'] at h
    obtain ⟨⟨h1, h2⟩, h3⟩ := h
    refine ⟨h1, ?_, root, ?_, ?_, h3⟩
    · intro r hr
      simp only [sourceConsumed, hr, decide_eq_false_iff_not] at h2
      exact h2
    · simp only [writtenRoot, wholePlaceWrite, h1] at hw
      split at hw
      · rename_i q hq
        split at hw
        · cases hw; exact hq
        · cases hw
      · cases hw
    · simp only [writtenRoot, wholePlaceWrite, h1] at hw
      split at hw
      · split at hw
        · cases hw; assumption
        · cases hw
      · cases hw
  · cases h

/-- Executing a dead store only changes the content of its target. -/
theorem exec_dead (hv : StoresValues f) {b : Block} (hb : b ∈ f) {op : Op} (hop : op ∈ b.ops) {live : Finset Nat}
    (hd : dead (candidates trivial f) (consuming f) live op = true) {s : St V σ} (hP : AllBind (Fits trivial f) s) :
    execOp W op.direct op s = .stuck ∨ ∃ r c c', r ∈ candidates trivial f ∧ r ∉ live ∧
      s.env r = some (.cell c) ∧ execOp W op.direct op s = .ok (s.set r (some (.cell c'))) := by
  obtain ⟨hk, hsrc, r, hr1, hrc, hrl⟩ := dead_spec hd
  obtain ⟨v, p, hops, hval⟩ := hv b hb op hop hk
  have hp : p = .register r := by simpa [hops] using hr1
  subst hp
  have halloc : IsAlloca f r := mem_allocas (mem_candidates hrc).1
  have hd0 : op.direct 0 = false := by simp [Op.direct, Op.writeIndex, Op.readsWhole, hk]
  have hd1 : op.direct 1 = true := by simp [Op.direct, Op.writeIndex, hk]
  have hr0 : ∀ i, op.readsWhole i = false := by intro i; simp [Op.readsWhole, hk]
  have hexp : exposeFrom W op.direct 0 op.operands s = s := by
    rw [hops]
    simp only [exposeFrom, hd0, hd1]
    simp only [if_true, Bool.false_eq_true, if_false]
    unfold exposeOne
    split
    · rename_i q
      split
      · rename_i c hc
        exact absurd ((hP q).2.1 c hc) (hval r q rfl halloc rfl)
      · rfl
    · rfl
  unfold execOp
  simp only [hexp]
  rw [hops]
  simp only [argsFrom, hr0]
  have hargv : argOf W false s v = none ∨ ∃ x, argOf W false s v = some (.value x) := by
    unfold argOf
    split
    · rename_i q
      split
      · exact Or.inl rfl
      · exact Or.inr ⟨_, rfl⟩
      · rename_i c hc
        exact absurd ((hP q).2.1 c hc) (hval r q rfl halloc rfl)
    all_goals exact Or.inr ⟨_, rfl⟩
  rcases hargv with h1 | ⟨x, h1⟩
  · left; simp [h1]
  rcases (hP r).1 hrc with h2 | ⟨c, h2⟩
  · left
    simp [argOf, h2]
  right
  have h3 : argOf W false s (.register r) = some .target := by simp [argOf, h2]
  refine ⟨r, c, some x, hrc, hrl, h2, ?_⟩
  simp only [h1, h3]
  unfold execArgs
  simp only [hk, hops]
  have hcons : consumeSource W s (some v) = s := by
    unfold consumeSource
    split
    · rename_i q hq
      cases hq
      split
      · rename_i y hy
        exact absurd ((hP q).2.2 y hy) (hsrc q (by simp [hops]))
      · rfl
    · rfl
  simp [hcons, writeCell, h2]

/-- The relation between the two executions. -/
inductive Rel (trivial : Nat → Bool) (f : Body) (W : World V σ) (l : List (Finset Nat)) :
    Config V σ → Config V σ → Prop
  | done x : Rel trivial f W l (.done x) (.done x)
  | at {ops t s s'} : CodeOf f ops t → AllBind (Fits trivial f) s →
      Agree (· ∈ candidates trivial f) (· ∈ transfer (candidates trivial f) ops (outOf l t)) s s' →
      SafeFrom W f (.at ops t s) →
      Rel trivial f W l (.at ops t s)
        (.at (sweep (candidates trivial f) (consuming f) ops (outOf l t)) t s')

theorem removeDeadStores_eq (hr : InRange f) : ∃ l, Inv f (candidates trivial f) [] l ∧
    removeDeadStores trivial f = some (f.map fun b =>
      { b with ops := sweep (candidates trivial f) (consuming f) b.ops (outOf l b.term) }) := by
  obtain ⟨l, h1, h2⟩ := liveness_spec (c := candidates trivial f) hr
  refine ⟨l, h2, ?_⟩
  unfold removeDeadStores
  simp only [h1, Option.bind_eq_bind, Option.bind_some]
  apply SpecTable.mapM_some
  intro b hb
  unfold sweepBlock
  rw [liveOut_eq (fun s hs => by rw [h2.len]; exact hr b hb s hs)]
  rfl

/-- The swept body. -/
abbrev swept (trivial : Nat → Bool) (f : Body) (l : List (Finset Nat)) : Body :=
  f.map fun b => { b with ops := sweep (candidates trivial f) (consuming f) b.ops (outOf l b.term) }

theorem rel_enter {l : List (Finset Nat)} (hI : Inv f (candidates trivial f) [] l) {q : Nat} {s s' : St V σ} {t : Term}
    (hq : q ∈ t.successors) (hP : AllBind (Fits trivial f) s)
    (hA : Agree (· ∈ candidates trivial f) (· ∈ outOf l t) s s') (hs : SafeFrom W f (enter f q s)) :
    Rel trivial f W l (enter f q s) (enter (swept trivial f l) q s') := by
  unfold enter at hs ⊢
  cases hb : f[q]? with
  | none => simp only [List.getElem?_map, hb, Option.map_none]; exact .done _
  | some b =>
    simp only [List.getElem?_map, hb, Option.map_some]
    simp only [hb] at hs
    refine .at ⟨b, List.mem_of_getElem? hb, ⟨[], rfl⟩, rfl⟩ hP (hA.mono ?_) hs
    intro r _ hrl
    rcases hI.fixed q b hb with h | h
    · cases h
    · exact mem_outOf.2 ⟨q, hq, by rw [h]; exact hrl⟩

/-- One operation which is kept, or the terminator. -/
theorem rel_step {l : List (Finset Nat)} (hr : InRange f) (hs : SingleAssignment f)
    (hI : Inv f (candidates trivial f) [] l) {ops : List Op} {t : Term} {s s' : St V σ} (hcode : CodeOf f ops t)
    (hP : AllBind (Fits trivial f) s)
    (hA : Agree (· ∈ candidates trivial f) (· ∈ transfer (candidates trivial f) ops (outOf l t)) s s')
    (hsafe : SafeFrom W f (.at ops t s))
    (hd : ∀ op rest, ops = op :: rest →
      dead (candidates trivial f) (consuming f) (transfer (candidates trivial f) rest (outOf l t)) op = false) :
    Rel trivial f W l (step W f (.at ops t s))
      (step W (swept trivial f l) (.at (sweep (candidates trivial f) (consuming f) ops (outOf l t)) t s')) := by
  have hsafe' := hsafe.step
  have hall := configAll_step (W := W) (bodyKeeps (V := V) (trivial := trivial) hs)
    (c := .at ops t s) ⟨hcode, hP⟩
  obtain ⟨b, hb, ⟨pre, hpre⟩, ht⟩ := hcode
  cases ops with
  | cons op rest =>
    have hop : op ∈ b.ops := by rw [hpre]; simp
    simp only [sweep, hd op rest rfl, Bool.false_eq_true, if_false]
    have hrel := agree_execOp (W := W) (direct := op.direct) (C := (· ∈ candidates trivial f))
      (L := (· ∈ transferOp (candidates trivial f) op (transfer (candidates trivial f) rest (outOf l t)))) hA op (by
        intro i r hi hc
        rcases ((mem_candidates hc).2 b hb).1 op hop i hi with h | h
        · right
          rw [wholePlaceWrite_eq] at h
          exact ⟨by simp [Op.direct, h], h⟩
        · left
          exact mem_transferOp.2 (Or.inr ⟨hc, i, hi, h⟩))
    simp only [step] at hsafe' hall ⊢
    generalize execOp W op.direct op s = e1 at hsafe' hall hrel ⊢
    generalize execOp W op.direct op s' = e2 at hrel ⊢
    cases hrel with
    | ok h =>
      refine .at hall.1 hall.2 (h.mono ?_) hsafe'
      intro r hc hrl
      by_cases hw : writtenRoot (candidates trivial f) op = some r
      · right
        simp only [writtenRoot] at hw
        split at hw
        · cases hw
        · rename_i i hi
          split at hw
          · rename_i q hq
            split at hw
            · cases hw; exact ⟨i, hi, hq⟩
            · cases hw
          · cases hw
      · left
        exact mem_transferOp.2 (Or.inl ⟨hrl, hw⟩)
    | error h =>
      simp only []
      rw [h.world]
      exact .done _
    | halt w => exact .done _
    | stuck => exact .done _
  | nil =>
    simp only [step, sweep] at hsafe' ⊢
    have hA0 : Agree (· ∈ candidates trivial f) (· ∈ outOf l t) s s' := hA
    have hno : ∀ r, Value.register r ∈ t.operands → ¬ r ∈ candidates trivial f := by
      intro r hr hc
      rw [← ht] at hr
      exact ((mem_candidates hc).2 b hb).2 hr
    unfold stepTerm at hsafe' ⊢
    cases t with
    | goto q => exact rel_enter hI (by simp [Term.successors]) hP hA0 hsafe'
    | condBr v q1 q2 =>
      have hv : valueOf W s v = valueOf W s' v := by
        unfold valueOf
        rw [agree_argOf hA0 (fun r hr hc => Or.inl rfl)]
      simp only [← hv] at hsafe' ⊢
      cases hcase : (valueOf W s v).bind W.asBool with
      | none => exact .done _
      | some x =>
        simp only [hcase] at hsafe' ⊢
        cases x
        · exact rel_enter hI (by simp [Term.successors]) hP hA0 hsafe'
        · exact rel_enter hI (by simp [Term.successors]) hP hA0 hsafe'
    | invoke op n e =>
      have hk := (bodyKeeps (V := V) (trivial := trivial) hs).invokes b hb op n e ht
      have hP' := allBind_execOp (W := W) hk hP
      have hrel := agree_execOp (W := W) (direct := fun _ => false) hA0 op (by
        intro i r hi hc
        exact absurd hc (hno r (List.mem_of_getElem? hi)))
      simp only [] at hsafe' ⊢
      generalize execOp W (fun _ => false) op s = e1 at hsafe' hP' hrel ⊢
      generalize execOp W (fun _ => false) op s' = e2 at hrel ⊢
      cases hrel with
      | ok h => exact rel_enter hI (by simp [Term.successors]) hP' (h.mono fun r _ h => Or.inl h) hsafe'
      | error h => exact rel_enter hI (by simp [Term.successors]) hP' h hsafe'
      | halt w => exact .done _
      | stuck => exact .done _
    | yield v q =>
      have hA1 := agree_exposeOne (W := W) hA0 (v := v) (by
        intro r hr hc
        exact absurd hc (hno r (by simp [Term.operands, hr])))
      have hP1 : AllBind (Fits trivial f) (exposeOne W s v) := allBind_exposeOne hP (by
        rintro r c w rfl hc
        exact (bodyKeeps (V := V) (trivial := trivial) hs).yields b hb r q ht c w hc)
      have hv : valueOf W (exposeOne W s v) v = valueOf W (exposeOne W s' v) v := by
        unfold valueOf
        rw [agree_argOf hA1 (fun r hr hc => Or.inl rfl)]
      simp only [← hv, ← hA1.world] at hsafe' ⊢
      cases hcase : valueOf W (exposeOne W s v) v with
      | none => exact .done _
      | some x =>
        simp only [hcase] at hsafe' ⊢
        cases hy : W.yield x (exposeOne W s v).world with
        | none => exact .done _
        | some w =>
          simp only [hy] at hsafe' ⊢
          exact rel_enter (s := { exposeOne W s v with world := w }) hI (by simp [Term.successors]) hP1
            (hA1.withWorld w) hsafe'
    | ret => simp only []; rw [hA0.world]; exact .done _
    | propagateError => simp only []; rw [hA0.world]; exact .done _
    | cleanupFailure => simp only []; rw [hA0.world]; exact .done _

/-- A dead store. -/
theorem rel_dead {l : List (Finset Nat)} (hs : SingleAssignment f) (hv : StoresValues f) {op : Op} {rest : List Op}
    {t : Term} {s s' : St V σ} (hcode : CodeOf f (op :: rest) t) (hP : AllBind (Fits trivial f) s)
    (hA : Agree (· ∈ candidates trivial f) (· ∈ transfer (candidates trivial f) (op :: rest) (outOf l t)) s s')
    (hsafe : SafeFrom W f (.at (op :: rest) t s))
    (hd : dead (candidates trivial f) (consuming f) (transfer (candidates trivial f) rest (outOf l t)) op = true) :
    ∃ s1, step W f (.at (op :: rest) t s) = .at rest t s1 ∧ CodeOf f rest t ∧ AllBind (Fits trivial f) s1 ∧
      Agree (· ∈ candidates trivial f) (· ∈ transfer (candidates trivial f) rest (outOf l t)) s1 s' ∧
      SafeFrom W f (.at rest t s1) := by
  have hsafe' := hsafe.step
  have hall := configAll_step (W := W) (bodyKeeps (V := V) (trivial := trivial) hs)
    (c := .at (op :: rest) t s) ⟨hcode, hP⟩
  obtain ⟨b, hb, ⟨pre, hpre⟩, ht⟩ := hcode
  have hop : op ∈ b.ops := by rw [hpre]; simp
  simp only [step] at hsafe' hall ⊢
  rcases exec_dead (W := W) hv hb hop hd hP with h | ⟨r, c, c', h1, h2, h3, h4⟩
  · rw [h] at hsafe'
    exact absurd rfl (hsafe' 0)
  · rw [h4] at hsafe' hall ⊢
    refine ⟨_, rfl, hall.1, hall.2, ⟨hA.world, fun q => ?_⟩, hsafe'⟩
    by_cases hq : q = r
    · subst hq
      right
      refine ⟨h1, h2, ⟨c', by simp [St.set]⟩, ?_⟩
      rcases hA.env q with h | ⟨_, _, _, h⟩
      · exact ⟨c, by rw [← h]; exact h3⟩
      · exact h
    · simp only [St.set, Function.update_of_ne hq]
      refine (hA.env q).imp id fun ⟨a1, a2, a3⟩ => ⟨a1, fun hl => a2 ?_, a3⟩
      refine mem_transferOp.2 (Or.inl ⟨hl, ?_⟩)
      intro hw
      obtain ⟨hk, _, r', hr', _, hnl⟩ := dead_spec hd
      simp only [writtenRoot, wholePlaceWrite, hk, hr'] at hw
      split at hw
      · cases hw; exact hnl hl
      · cases hw; exact hnl hl

theorem rel_skip {l : List (Finset Nat)} (hs : SingleAssignment f) (hv : StoresValues f) {t : Term} {s' : St V σ} :
    ∀ (ops : List Op) (s : St V σ), CodeOf f ops t → AllBind (Fits trivial f) s →
      Agree (· ∈ candidates trivial f) (· ∈ transfer (candidates trivial f) ops (outOf l t)) s s' →
      SafeFrom W f (.at ops t s) → ∃ k rest s1, run W f k (.at ops t s) = .at rest t s1 ∧ CodeOf f rest t ∧
        AllBind (Fits trivial f) s1 ∧
        Agree (· ∈ candidates trivial f) (· ∈ transfer (candidates trivial f) rest (outOf l t)) s1 s' ∧
        SafeFrom W f (.at rest t s1) ∧
        sweep (candidates trivial f) (consuming f) ops (outOf l t) =
          sweep (candidates trivial f) (consuming f) rest (outOf l t) ∧
        ∀ op rest', rest = op :: rest' →
          dead (candidates trivial f) (consuming f) (transfer (candidates trivial f) rest' (outOf l t)) op = false := by
  intro ops
  induction ops with
  | nil =>
    intro s h1 h2 h3 h4
    exact ⟨0, [], s, rfl, h1, h2, h3, h4, rfl, by intro op rest' h; cases h⟩
  | cons op rest ih =>
    intro s h1 h2 h3 h4
    cases hd : dead (candidates trivial f) (consuming f) (transfer (candidates trivial f) rest (outOf l t)) op with
    | false => exact ⟨0, op :: rest, s, rfl, h1, h2, h3, h4, rfl, by intro op' rest' h; cases h; exact hd⟩
    | true =>
      obtain ⟨s1, e1, e2, e3, e4, e5⟩ := rel_dead hs hv h1 h2 h3 h4 hd
      obtain ⟨k, rest', s2, d1, d2, d3, d4, d5, d6, d7⟩ := ih s1 e2 e3 e4 e5
      refine ⟨k + 1, rest', s2, ?_, d2, d3, d4, d5, ?_, d7⟩
      · simp only [run, e1]; exact d1
      · simp only [sweep, hd, if_true]; exact d6

/-- The body without its dead stores behaves like the original. -/
theorem same_behaviour (hr : InRange f) (hs : SingleAssignment f) (hv : StoresValues f) {g : Body}
    (hg : removeDeadStores trivial f = some g) {w : σ} (hsafe : Safe W f w) : SameBehaviour W f g w := by
  obtain ⟨l, hI, he⟩ := removeDeadStores_eq (trivial := trivial) hr
  rw [he] at hg
  cases hg
  refine sim_both (Rel trivial f W l) ?_ ?_ ?_ ?_ ?_ ?_
  · intro c c' h
    cases h with
    | done x => rfl
    | «at» _ _ h _ => simp only [Config.world?]; rw [h.world]
  · intro x c' h; cases h; rfl
  · intro x c h; cases h; rfl
  · intro c c' h
    cases h with
    | done x => exact ⟨0, .done x⟩
    | @«at» ops t s s' h1 h2 h3 h4 =>
      cases ops with
      | nil => exact ⟨1, rel_step hr hs hI h1 h2 h3 h4 (by intro op rest h; cases h)⟩
      | cons op rest =>
        cases hd : dead (candidates trivial f) (consuming f) (transfer (candidates trivial f) rest (outOf l t)) op with
        | false => exact ⟨1, rel_step hr hs hI h1 h2 h3 h4 (by intro op rest h; cases h; exact hd)⟩
        | true =>
          obtain ⟨s1, e1, e2, e3, e4, e5⟩ := rel_dead hs hv h1 h2 h3 h4 hd
          refine ⟨0, ?_⟩
          simp only [run, e1, sweep, hd, if_true]
          exact .at e2 e3 e4 e5
  · intro c c' h
    cases h with
    | done x => exact ⟨0, .done x⟩
    | @«at» ops t s s' h1 h2 h3 h4 =>
      obtain ⟨k, rest, s1, d1, d2, d3, d4, d5, d6, d7⟩ := rel_skip (W := W) hs hv ops s h1 h2 h3 h4
      refine ⟨k + 1, ?_⟩
      rw [run_add, d1, d6]
      exact rel_step hr hs hI d2 d3 d4 d5 d7
  · have h0 := safeFrom_start hsafe
    unfold start at h0 ⊢
    unfold enter at h0 ⊢
    cases hb : f[0]? with
    | none => simp only [List.getElem?_map, hb, Option.map_none]; exact .done _
    | some b =>
      simp only [List.getElem?_map, hb, Option.map_some]
      simp only [hb] at h0
      exact .at ⟨b, List.mem_of_getElem? hb, ⟨[], rfl⟩, rfl⟩
        (fun r => ⟨fun _ => Or.inl rfl, by simp, by simp⟩) Agree.refl h0

end Ferlium.DeadStore
