import Verif.Proofs.BranchForward
import Verif.Proofs.DeadStoreSim

/-! The simulation for forwarding of stored booleans. -/
namespace Ferlium.BranchForward

open Ferlium.Mir
open Ferlium.Peephole (boolValue boolValue_plain)

variable {V σ : Type} {W : World V σ} {f g : Body} {isBool : Nat → Bool}

/-- Further rules of well-formed MIR: stores have no result, loads have one operand, the second operand of a comparison
is a pattern, and in a block no operation uses a register which the block defines later. -/
structure Tidy (f : Body) : Prop where
  noResult : ∀ b ∈ f, (∀ op ∈ b.ops, op.kind = .store → op.result = none) ∧
    ∀ op n e, b.term = .invoke op n e → op.kind = .store → op.result = none
  loads : ∀ b ∈ f, ∀ op ∈ b.ops, op.kind = .load → ∃ v, op.operands = [v]
  patterns : ∀ b ∈ f, ∀ op ∈ b.ops, op.kind = .compareEqual → ∃ v l, op.operands = [v, .pattern l]
  before : ∀ b ∈ f, ∀ pre op post, b.ops = pre ++ op :: post → ∀ r, Value.register r ∈ op.operands →
    ∀ op' ∈ post, op'.result ≠ some r

theorem readFlag_spec {op : Op} {flag : Nat} {expected : Bool} (h : readFlag op = some (flag, expected))
    (hk : op.kind = .compareEqual ∨ op.kind = .load)
    (hp : op.kind = .compareEqual → ∃ v l, op.operands = [v, .pattern l]) :
    (op.kind = .load ∧ op.operands = [.register flag] ∧ expected = true) ∨
    (op.kind = .compareEqual ∧ ∃ l, op.operands = [.register flag, l] ∧ boolValue l = some expected) := by
  unfold readFlag at h
  rcases hk with hk | hk
  · right
    obtain ⟨v, l, hop⟩ := hp hk
    rw [hk, hop] at h
    simp only [] at h
    refine ⟨hk, .pattern l, ?_⟩
    cases v with
    | register r =>
      simp only [Option.map_eq_some_iff, Prod.mk.injEq] at h
      obtain ⟨v, h1, rfl, rfl⟩ := h
      exact ⟨hop, h1⟩
    | _ => simp at h
  · left
    rw [hk] at h
    simp only [] at h
    split at h
    · rename_i r hr
      cases h
      exact ⟨hk, hr, rfl⟩
    · cases h

theorem planJoin_spec (hv : Valid f) (ht : Tidy f) {join : Nat} {arms : List Arm} (h : planJoin isBool f join = some arms) :
    (∀ arm ∈ arms, ArmOk f arm.source arm join) ∧ (arms.map Arm.source).Nodup := by
  unfold planJoin at h
  split at h
  · cases h
  · rename_i blk hblk
    have hmem := List.mem_of_getElem? hblk
    split at h
    · rename_i read condition t e hlast hterm
      split at h
      · cases h
      rename_i hkind
      split at h
      · cases h
      rename_i hres
      split at h
      · cases h
      split at h
      · cases h
      rename_i flag expected hread
      split at h
      · cases h
      rename_i hflag
      split at h
      · cases h
      rename_i hcens
      rw [Option.map_eq_some_iff] at h
      obtain ⟨found, hfound, rfl⟩ := h
      simp only [not_or, not_and_or, ne_eq, not_not] at hkind hres hcens
      obtain ⟨hc1, hc2, hc3, hc4⟩ := hcens
      have hops : blk.ops = blk.ops.dropLast ++ [read] := by
        rw [List.getLast?_eq_some_iff] at hlast
        obtain ⟨ys, hys⟩ := hlast
        rw [hys]; simp
      have hrmem : read ∈ blk.ops := by rw [hops]; simp
      have hpriv : Private f flag := private_of_census (by simpa using hflag) hc1
      have hj : Join f join flag expected blk.ops.dropLast read condition t e := by
        refine ⟨?_, by simpa using hc4, hres.1, ?_, hres.2, hpriv⟩
        · rw [hblk, ← hops, ← hterm]
        · exact readFlag_spec hread hkind (ht.patterns blk hmem read hrmem)
      unfold reachingStores at hfound
      split at hfound
      · cases hfound
      rename_i found' hloop
      split at hfound
      · cases hfound
        obtain ⟨h1, h2⟩ := reachingLoop_spec 16 _ [] [] found (by
          intro p hp
          obtain ⟨q, hq, rfl⟩ := List.mem_map.1 hp
          rw [List.mem_reverse] at hq
          obtain ⟨blk', h1, h2⟩ := mem_incoming hq
          exact ⟨blk', join, 0, h1, h2, .here⟩) (by simp) (by simp) hloop
        refine ⟨?_, by rw [List.map_map]; exact h2⟩
        intro arm harm
        obtain ⟨r, hr, rfl⟩ := List.mem_map.1 harm
        obtain ⟨k1, ⟨blk', b, n, k2, k3, k4⟩, s, k5, k6⟩ := h1 r hr
        obtain ⟨preS, op, l, postS, m1, m2, m3, m4, m5⟩ := store_block k2 hv.stores hc1 hc2 k1 k5
        refine ⟨rfl, flag, expected, _, read, condition, t, e, hj, preS, op, l, postS, b, n, r.replay, r.value, ?_, m2, m3,
          by rw [m4, k6], m5, k4, rfl, rfl⟩
        rw [k2, ← m1, ← k3]
      · cases hfound
    · cases h

theorem armOk_join {source source' : Nat} {arm arm' : Arm} {join join' : Nat} (h : ArmOk f source arm join)
    (h' : ArmOk f source' arm' join') (hs : source = source') : join = join' := by
  subst hs
  obtain ⟨_, flag, expected, pre, read, r, t, e, hj, preS, op, l, postS, b, n, rs, v, h1, _, _, _, _, h2, _⟩ := h
  obtain ⟨_, flag', expected', pre', read', r', t', e', hj', preS', op', l', postS', b', n', rs', v', h1', _, _, _, _, h2', _⟩ := h'
  rw [h1] at h1'
  simp only [Option.some.injEq, Block.mk.injEq, Term.goto.injEq] at h1'
  obtain ⟨_, rfl⟩ := h1'
  refine (path_unique h2 h2' ?_ ?_).1
  · intro blk hb t; rw [hj.block] at hb; cases hb; simp
  · intro blk hb t; rw [hj'.block] at hb; cases hb; simp

/-! ### The edited body -/

/-- What the redirections do to each block. -/
structure Edited (f g : Body) : Prop where
  len : g.length = f.length
  blocks : ∀ (b : Nat) blk, f[b]? = some blk → g[b]? = some blk ∨
    ∃ arm join, ArmOk f b arm join ∧ g[b]? = some ⟨blk.ops ++ arm.replay, .goto arm.target⟩

theorem applyArms_spec : ∀ (arms : List Arm) (e : Body), (arms.map Arm.source).Nodup →
    (arms.foldl applyArm e).length = e.length ∧
    ∀ (b : Nat) blk, e[b]? = some blk → (b ∉ arms.map Arm.source ∧ (arms.foldl applyArm e)[b]? = some blk) ∨
      ∃ arm ∈ arms, arm.source = b ∧ (arms.foldl applyArm e)[b]? = some ⟨blk.ops ++ arm.replay, .goto arm.target⟩ := by
  intro arms
  induction arms with
  | nil => intro e _; exact ⟨rfl, fun b blk h => Or.inl ⟨by simp, h⟩⟩
  | cons a arms ih =>
    intro e hn
    rw [List.map_cons, List.nodup_cons] at hn
    obtain ⟨h1, h2⟩ := ih (applyArm e a) hn.2
    rw [List.foldl_cons]
    have hlen : (applyArm e a).length = e.length := by
      unfold applyArm; split <;> simp
    refine ⟨by rw [h1, hlen], ?_⟩
    intro b blk hb
    by_cases hba : a.source = b
    · have hb' : (applyArm e a)[b]? = some ⟨blk.ops ++ a.replay, .goto a.target⟩ := by
        unfold applyArm
        rw [hba, hb]
        simp [(List.getElem?_eq_some_iff.1 hb).1]
      rcases h2 b _ hb' with ⟨_, h3⟩ | ⟨arm, h3, h4, _⟩
      · exact Or.inr ⟨a, by simp, hba, h3⟩
      · exact absurd (List.mem_map.2 ⟨arm, h3, h4.trans hba.symm⟩) hn.1
    · have hb' : (applyArm e a)[b]? = some blk := by
        unfold applyArm
        split
        · exact hb
        · rw [List.getElem?_set_ne hba]; exact hb
      rcases h2 b _ hb' with ⟨h3, h4⟩ | ⟨arm, h3, h4, h5⟩
      · exact Or.inl ⟨by simp only [List.map_cons, List.mem_cons, not_or]; exact ⟨fun h => hba h.symm, h3⟩, h4⟩
      · exact Or.inr ⟨arm, by simp [h3], h4, h5⟩

theorem plans_ok (hv : Valid f) (ht : Tidy f) : ∀ (l : List Nat), l.Nodup →
    (∀ arm ∈ (l.filterMap (planJoin isBool f)).flatten, ∃ join ∈ l, ArmOk f arm.source arm join) ∧
    ((l.filterMap (planJoin isBool f)).flatten.map Arm.source).Nodup := by
  intro l
  induction l with
  | nil => intro _; simp
  | cons j l ih =>
    intro hn
    rw [List.nodup_cons] at hn
    obtain ⟨h1, h2⟩ := ih hn.2
    cases hp : planJoin isBool f j with
    | none =>
      rw [List.filterMap_cons_none hp]
      exact ⟨fun arm ha => by obtain ⟨join, hj, h⟩ := h1 arm ha; exact ⟨join, by simp [hj], h⟩, h2⟩
    | some arms =>
      rw [List.filterMap_cons_some hp, List.flatten_cons]
      obtain ⟨h3, h4⟩ := planJoin_spec hv ht hp
      refine ⟨?_, ?_⟩
      · intro arm ha
        rcases List.mem_append.1 ha with ha | ha
        · exact ⟨j, by simp, h3 arm ha⟩
        · obtain ⟨join, hj, h⟩ := h1 arm ha
          exact ⟨join, by simp [hj], h⟩
      · rw [List.map_append, List.nodup_append]
        refine ⟨h4, h2, ?_⟩
        intro a ha b hb hab
        obtain ⟨arm, harm, rfl⟩ := List.mem_map.1 ha
        obtain ⟨arm', harm', rfl⟩ := List.mem_map.1 hb
        obtain ⟨join, hj, h⟩ := h1 arm' harm'
        exact hn.1 (armOk_join (h3 arm harm) h hab ▸ hj)

theorem edited_spec (hv : Valid f) (ht : Tidy f) :
    Edited f (((List.range f.length).filterMap (planJoin isBool f)).flatten.foldl applyArm f) := by
  obtain ⟨h1, h2⟩ := plans_ok (isBool := isBool) hv ht (List.range f.length) List.nodup_range
  obtain ⟨h3, h4⟩ := applyArms_spec _ f h2
  refine ⟨h3, fun b blk hb => ?_⟩
  rcases h4 b blk hb with ⟨_, h⟩ | ⟨arm, ha, rfl, h⟩
  · exact Or.inl h
  · obtain ⟨join, _, hok⟩ := h1 arm ha
    exact Or.inr ⟨arm, join, hok, h⟩

/-! ### The results of the reads -/

/-- The register is the result of the read of a join. -/
def Gone (f : Body) (r : Nat) : Prop := ∃ join flag expected pre read t e, Join f join flag expected pre read r t e

theorem count_flatMap (u : Block → List Value) (f : Body) (x : Value) :
    (f.flatMap u).count x = (f.map fun b => (u b).count x).sum := by
  induction f with
  | nil => simp
  | cons b f ih => simp [List.count_append, ih]

theorem count_of_block {r b : Nat} {blk : Block} (hb : f[b]? = some blk) (h : useCount f r = 1) {join : Nat} {blk' : Block}
    (hj : f[join]? = some blk') (hu : Value.register r ∈ blk'.ops.flatMap Op.operands ++ blk'.term.operands)
    (hu' : Value.register r ∈ blk.ops.flatMap Op.operands ++ blk.term.operands) : b = join := by
  by_contra hne
  unfold useCount at h
  rw [count_flatMap] at h
  have h1 := Edit.two_le_sum (f.map fun b => (b.ops.flatMap Op.operands ++ b.term.operands).count (.register r))
    (i := b) (j := join) (a := (blk.ops.flatMap Op.operands ++ blk.term.operands).count (.register r))
    (b := (blk'.ops.flatMap Op.operands ++ blk'.term.operands).count (.register r)) hne
    (by rw [List.getElem?_map, hb]; rfl) (by rw [List.getElem?_map, hj]; rfl)
  have h2 := List.count_pos_iff.2 hu
  have h3 := List.count_pos_iff.2 hu'
  omega

/-- The result of the read is only used by the branch. -/
theorem gone_use {r : Nat} (h : Gone f r) {b : Block} (hb : b ∈ f) :
    (∀ op ∈ b.ops, Value.register r ∉ op.operands) ∧
    (Value.register r ∈ b.term.operands → (∃ x y, b.term = .condBr (.register r) x y) ∧ ∃ op ∈ b.ops, op.result = some r) := by
  obtain ⟨join, flag, expected, pre, read, t, e, hj⟩ := h
  obtain ⟨i, hi⟩ := List.getElem?_of_mem hb
  have huj : Value.register r ∈ (pre ++ [read]).flatMap Op.operands ++ (Term.condBr (.register r) t e).operands := by
    rw [List.mem_append]; right; simp [Term.operands]
  have hjoin : ∀ blk, f[join]? = some blk → ∀ op ∈ blk.ops, Value.register r ∉ op.operands := by
    intro blk hblk op hop hm
    have h1 : (blk.ops.flatMap Op.operands ++ blk.term.operands).count (.register r) ≤ 1 := by
      have h0 := hj.once
      unfold useCount at h0
      rw [count_flatMap] at h0
      rw [← h0]
      exact Edit.le_sum _ join (by rw [List.getElem?_map, hblk]; rfl)
    rw [hj.block] at hblk
    cases hblk
    rw [List.count_append] at h1
    have h2 : 0 < ((pre ++ [read]).flatMap Op.operands).count (.register r) :=
      List.count_pos_iff.2 (List.mem_flatMap.2 ⟨op, hop, hm⟩)
    have h3 : 0 < (Term.condBr (.register r) t e).operands.count (.register r) :=
      List.count_pos_iff.2 (by simp [Term.operands])
    simp only [] at h1
    omega
  refine ⟨fun op hop hm => ?_, fun hm => ?_⟩
  · have := count_of_block hi hj.once hj.block huj (by rw [List.mem_append]; left; exact List.mem_flatMap.2 ⟨op, hop, hm⟩)
    subst this
    exact hjoin b hi op hop hm
  · have := count_of_block hi hj.once hj.block huj (by rw [List.mem_append]; right; exact hm)
    subst this
    rw [hj.block] at hi
    cases hi
    exact ⟨⟨t, e, rfl⟩, read, by simp, hj.result⟩

/-- The registers on which the two executions may differ when they are at the same place. -/
def GoneAt (f : Body) (ops : List Op) (t : Term) (r : Nat) : Prop :=
  Gone f r ∧ ¬ ((∃ x y, t = .condBr (.register r) x y) ∧ ∀ op ∈ ops, op.result ≠ some r)

theorem gone_goneAt {r : Nat} (h : Gone f r) {b : Block} (hb : b ∈ f) : GoneAt f b.ops b.term r := by
  refine ⟨h, ?_⟩
  rintro ⟨⟨x, y, hxy⟩, hn⟩
  obtain ⟨_, op, hop, hres⟩ := (gone_use h hb).2 (by rw [hxy]; simp [Term.operands])
  exact hn op hop hres

/-! ### Flags are private cells -/

/-- A flag is a cell once it exists. -/
def IsCell (f : Body) (r : Nat) (b : Option (Bind V)) : Prop := Private f r → b = none ∨ ∃ c, b = some (.cell c)

theorem alloca_unique (hv : Valid f) {r : Nat} (h : IsAlloca f r) {b : Block} (hb : b ∈ f) {op : Op} (hop : op ∈ b.ops)
    (hr : op.result = some r) : ∃ ty, op.kind = .alloca ty := by
  obtain ⟨b', hb', op', hop', hr', ty, hk⟩ := h
  have := SingleAssignment.unique hv.single hb hb' hop hop' hr hr'
  exact ⟨ty, by rw [this]; exact hk⟩

theorem isCell_keeps (hv : Valid f) (ht : Tidy f) : BodyKeeps (V := V) (IsCell f) f := by
  refine ⟨?_, ?_, ?_⟩
  · intro b hb op hop
    refine ⟨fun r _ => Or.inl rfl, fun r c c' _ _ => Or.inr ⟨c', rfl⟩, ?_, ?_, fun r ty _ _ _ => Or.inr ⟨none, rfl⟩⟩
    · intro i r c v hi hd _ hp
      exfalso
      rcases hp.ops b hb op hop i hi with ⟨hk, rfl⟩ | hk | hk
      · simp [Op.direct, Op.writeIndex, hk] at hd
      · obtain ⟨v, l, hops⟩ := ht.patterns b hb op hop hk
        rw [hops] at hi
        cases i with
        | zero => simp [Op.direct, Op.readsWhole, hk] at hd
        | succ i =>
          cases i with
          | zero => simp at hi
          | succ i => simp at hi
      · cases i with
        | zero => simp [Op.direct, Op.readsWhole, hk] at hd
        | succ i =>
          obtain ⟨v, hops⟩ := ht.loads b hb op hop hk
          rw [hops] at hi
          simp at hi
    · intro r v hr hk hp
      exfalso
      obtain ⟨ty, h⟩ := alloca_unique hv hp.alloca hb hop hr
      exact hk ty h
  · intro b hb op n e hterm
    refine ⟨fun r _ => Or.inl rfl, fun r c c' _ _ => Or.inr ⟨c', rfl⟩, ?_, ?_, fun r ty _ _ _ => Or.inr ⟨none, rfl⟩⟩
    · intro i r c v hi _ _ hp
      exact absurd (by rw [hterm]; exact List.mem_of_getElem? hi) (hp.terms b hb)
    · intro r v hr _ _
      rw [hv.single.2 b hb op n e hterm] at hr
      cases hr
  · intro b hb r k hterm c w _ hp
    exact absurd (by rw [hterm]; simp [Term.operands]) (hp.terms b hb)

/-! ### Simulation -/

/-- The flag has, or is about to get, the value. -/
def Status (W : World V σ) (flag : Nat) (v : Bool) (ops : List Op) (s : St V σ) : Prop :=
  (∃ preS op l postS, ops = preS ++ op :: postS ∧ op.kind = .store ∧ op.operands = [l, .register flag] ∧
    boolValue l = some v ∧ Quiet flag postS) ∨
  (s.env flag = some (.cell (some (W.bool v))) ∧ Quiet flag ops)

/-- The relation between the executions of the original and of the edited body. -/
inductive Rel (W : World V σ) (f : Body) : Nat → Config V σ → Config V σ → Prop
  | done n x : Rel W f n (.done x) (.done x)
  | same {n ops t s s'} : Off (GoneAt f ops t) s s' → Rel W f n (.at ops t s) (.at ops t s')
  | arm {join flag expected pre read r t e n b rs v ops s s'} : Join f join flag expected pre read r t e →
      Path f join n b rs → Off (Gone f) s s' → Status W flag v ops s →
      Rel W f (n + 2) (.at ops (.goto b) s)
        (.at (ops ++ (rs ++ pre)) (.goto (if v = expected then t else e)) s')
  | join {join flag expected pre read r t e v ops s s'} : Join f join flag expected pre read r t e →
      (∃ l, pre = l ++ ops) → Off (Gone f) s s' → s.env flag = some (.cell (some (W.bool v))) →
      Rel W f 1 (.at (ops ++ [read]) (.condBr (.register r) t e) s) (.at ops (.goto (if v = expected then t else e)) s')
  | cond {r t e b s s'} : Off (Gone f) s s' → s.env r = some (.value (W.bool b) false) →
      Rel W f 0 (.at [] (.condBr (.register r) t e) s) (.at [] (.goto (if b then t else e)) s')

theorem restores_quiet (hv : Valid f) {flag : Nat} (hp : Private f flag) {b : Block} (hb : b ∈ f) {ops : List Op}
    (hsub : ∀ op ∈ ops, op ∈ b.ops) (h : onlyRestores ops = true) : Quiet flag ops := by
  intro op hop
  have hk : op.kind = .stackRestore := by
    unfold onlyRestores at h
    rw [List.all_eq_true] at h
    simpa using h op hop
  refine ⟨fun hm => ?_, fun hr => ?_⟩
  · obtain ⟨i, hi⟩ := List.getElem?_of_mem hm
    rcases hp.ops b hb op (hsub op hop) i hi with ⟨h, _⟩ | h | h <;> rw [hk] at h <;> cases h
  · obtain ⟨ty, h⟩ := alloca_unique hv hp.alloca hb (hsub op hop) hr
    rw [hk] at h
    cases h

theorem avoids_gone {b : Block} (hb : b ∈ f) {op : Op} (hop : op ∈ b.ops) : Avoids (Gone f) op.operands :=
  fun _ hr hg => (gone_use hg hb).1 op hop hr

theorem rel_enter (hv : Valid f) (ht : Tidy f) (hE : Edited f g) (b : Nat) {s s' : St V σ} (h : Off (Gone f) s s') :
    ∃ n, Rel W f n (enter f b s) (enter g b s') := by
  unfold enter
  cases hb : f[b]? with
  | none =>
    have : g[b]? = none := by
      rw [List.getElem?_eq_none_iff] at hb ⊢
      rw [hE.len]; exact hb
    rw [this]
    exact ⟨0, .done 0 _⟩
  | some blk =>
    have hmem := List.mem_of_getElem? hb
    rcases hE.blocks b blk hb with hg | ⟨arm, join, hok, hg⟩
    · rw [hg]
      exact ⟨0, .same (h.mono fun r hr => gone_goneAt hr hmem)⟩
    · rw [hg]
      obtain ⟨_, flag, expected, pre, read, r, t, e, hj, preS, op, l, postS, b', n, rs, v, h1, h2, h3, h4, h5, h6, h7, h8⟩ := hok
      rw [hb] at h1
      cases h1
      simp only []
      rw [h7, h8]
      refine ⟨n + 2, .arm hj h6 h (Or.inl ⟨preS, op, l, postS, rfl, h2, h3, h4, ?_⟩)⟩
      intro op' hop'
      exact ⟨h5 op' hop', ht.before _ hmem preS op postS rfl flag (by rw [h3]; simp) op' hop'⟩

/-- A store of a literal into a cell. -/
theorem store_cell {op : Op} {l : Value} {flag : Nat} {v : Bool} {s s1 : St V σ} (hk : op.kind = .store)
    (ho : op.operands = [l, .register flag]) (hl : boolValue l = some v)
    (hc : s.env flag = none ∨ ∃ c, s.env flag = some (.cell c)) (h : execOp W op.direct op s = .ok s1) :
    s1.env flag = some (.cell (some (W.bool v))) := by
  have hp := boolValue_plain (W := W) hl s
  unfold execOp at h
  have he : exposeFrom W op.direct 0 op.operands s = s := by
    rw [ho]
    simp only [exposeFrom, Op.direct, Op.writeIndex, Op.readsWhole, hk, plain_expose hp]
    simp
  simp only [he] at h
  rw [ho] at h
  simp only [argsFrom, plain_arg hp] at h
  rcases hc with hc | ⟨c, hc⟩
  · have h1 : ∀ b, argOf W b s (.register flag) = none := fun b => by simp [argOf, hc]
    rw [h1] at h; simp at h
  · have h1 : argOf W (op.readsWhole (0 + 1)) s (.register flag) = some .target := by
      simp [argOf, hc, Op.readsWhole, hk]
    simp only [h1] at h
    simp only [hk, execArgs, ho, List.getElem?_cons_zero, List.getElem?_cons_succ, plain_consume hp, writeCell, hc] at h
    have h1 := Step.ok.inj h
    rw [← h1]
    simp [St.set]

theorem status_step {flag : Nat} {v : Bool} {op : Op} {ops : List Op} {s s1 : St V σ} (hp : Private f flag)
    (hc : AllBind (IsCell f) s) (h : Status W flag v (op :: ops) s) (he : execOp W op.direct op s = .ok s1) :
    Status W flag v ops s1 := by
  rcases h with ⟨preS, op', l, postS, h1, h2, h3, h4, h5⟩ | ⟨h1, h2⟩
  · cases preS with
    | nil =>
      cases h1
      exact Or.inr ⟨store_cell h2 h3 h4 (hc flag hp) he, h5⟩
    | cons x preS =>
      cases h1
      exact Or.inl ⟨preS, op', l, postS, rfl, h2, h3, h4, h5⟩
  · have hq := h2 op (by simp)
    exact Or.inr ⟨by rw [execOp_frame hq.1 hq.2 he]; exact h1, fun op' hop' => h2 op' (by simp [hop'])⟩

theorem read_cell {join flag : Nat} {expected v : Bool} {pre : List Op} {read : Op} {r t e : Nat}
    (hj : Join f join flag expected pre read r t e) {s : St V σ} (hc : s.env flag = some (.cell (some (W.bool v)))) :
    execOp W read.direct read s = .ok (s.set r (some (.value (W.bool (v == expected)) false))) := by
  rcases hj.reads with ⟨hk, ho, rfl⟩ | ⟨hk, l, ho, hl⟩
  · unfold execOp
    have he : exposeFrom W read.direct 0 read.operands s = s := by
      rw [ho]
      simp [exposeFrom, Op.direct, Op.writeIndex, Op.readsWhole, hk]
    simp only [he]
    rw [ho]
    simp [argsFrom, argOf, hc, Op.readsWhole, hk, execArgs, bindResult, hj.result, Op.owned]
  · have hp := boolValue_plain (W := W) hl s
    unfold execOp
    have he : exposeFrom W read.direct 0 read.operands s = s := by
      rw [ho]
      simp [exposeFrom, Op.direct, Op.writeIndex, Op.readsWhole, hk]
      exact plain_expose hp
    simp only [he]
    rw [ho]
    simp only [argsFrom, plain_arg hp]
    simp [argOf, hc, Op.readsWhole, hk, execArgs, bindResult, hj.result, Op.owned, W.compare_bool]

theorem rel_step (hv : Valid f) (ht : Tidy f) (hE : Edited f g) {n : Nat} {c c' : Config V σ}
    (hall : ConfigAll (IsCell f) f c) (h : Rel W f n c c') :
    (∃ m, Rel W f m (step W f c) (step W g c')) ∨ ∃ m, m < n ∧ Rel W f m (step W f c) c' := by
  cases h with
  | done n x => exact Or.inl ⟨0, .done 0 x⟩
  | @same n ops t s s' h =>
    left
    obtain ⟨⟨b, hb, ⟨pre, hpre⟩, rfl⟩, hcell⟩ := hall
    cases ops with
    | nil =>
      refine off_stepTerm (R := fun c c' => ∃ m, Rel W f m c c') (fun x => ⟨0, .done 0 x⟩) h ?_ ((ht.noResult b hb).2) ?_
      · intro r hr hg
        obtain ⟨⟨x, y, hxy⟩, _⟩ := (gone_use hg.1 hb).2 hr
        exact hg.2 ⟨⟨x, y, hxy⟩, by simp⟩
      · intro b' _ s s' h
        exact rel_enter hv ht hE b' (h.mono fun r hr => hr.1)
    | cons op ops =>
      have hop : op ∈ b.ops := by rw [hpre]; simp
      have h1 := off_execOp_result (W := W) (direct := op.direct) h (op := op)
        (fun r hr hg => avoids_gone hb hop r hr hg.1) ((ht.noResult b hb).1 op hop)
      simp only [step]
      revert h1
      generalize execOp W op.direct op s = e1
      generalize execOp W op.direct op s' = e2
      intro h1
      cases h1 with
      | ok h1 =>
        refine ⟨0, .same (h1.mono ?_)⟩
        rintro r ⟨⟨hg, hn⟩, hres⟩
        refine ⟨hg, fun ⟨hx, ho⟩ => hn ⟨hx, ?_⟩⟩
        intro o ho'
        rcases List.mem_cons.1 ho' with rfl | ho'
        · exact hres
        · exact ho o ho'
      | error h1 => simp only [h1.world]; exact ⟨0, .done 0 _⟩
      | halt w => exact ⟨0, .done 0 _⟩
      | stuck => exact ⟨0, .done 0 _⟩
  | @arm join flag expected pre read r t e n b rs v ops s s' hj hpath h hst =>
    obtain ⟨⟨blk, hb, ⟨pre', hpre⟩, _⟩, hcell⟩ := hall
    cases ops with
    | nil =>
      right
      have hcellv : s.env flag = some (.cell (some (W.bool v))) := by
        rcases hst with ⟨preS, op, l, postS, h1, _⟩ | ⟨h1, _⟩
        · cases preS <;> cases h1
        · exact h1
      simp only [step, stepTerm, List.nil_append]
      cases hpath with
      | here =>
        refine ⟨1, by omega, ?_⟩
        simp only [enter, hj.block, List.nil_append]
        exact .join hj ⟨[], rfl⟩ h hcellv
      | @pass n b b' ops rs h1 h2 h3 =>
        refine ⟨n + 2, by omega, ?_⟩
        simp only [enter, h1, List.append_assoc]
        exact .arm hj h3 h (Or.inr ⟨hcellv, restores_quiet hv hj.flag (List.mem_of_getElem? h1) (fun _ h => h) h2⟩)
    | cons op ops =>
      left
      have hop : op ∈ blk.ops := by rw [hpre]; simp
      have h1 := off_execOp (W := W) (direct := op.direct) h (avoids_gone hb hop) ((ht.noResult blk hb).1 op hop)
      have h2 := fun s1 => status_step (s1 := s1) hj.flag hcell hst
      simp only [step, List.cons_append]
      revert h1 h2
      generalize execOp W op.direct op s = e1
      generalize execOp W op.direct op s' = e2
      intro h1 h2
      cases h1 with
      | ok h1 => exact ⟨_, .arm hj hpath h1 (h2 _ rfl)⟩
      | error h1 => simp only [h1.world]; exact ⟨0, .done 0 _⟩
      | halt w => exact ⟨0, .done 0 _⟩
      | stuck => exact ⟨0, .done 0 _⟩
  | @join join flag expected pre read r t e v ops s s' hj hsub h hcellv =>
    obtain ⟨⟨blk, hb, ⟨pre', hpre⟩, _⟩, hcell⟩ := hall
    cases ops with
    | nil =>
      right
      refine ⟨0, by omega, ?_⟩
      simp only [List.nil_append, step, read_cell hj hcellv]
      have h1 : Off (Gone f) (s.set r (some (.value (W.bool (v == expected)) false))) s' := by
        refine ⟨h.world, ?_⟩
        rintro q _ ⟨rfl, hq⟩
        simp only [St.set]
        rw [Function.update_of_ne (fun hqr : q = r => hq (hqr ▸ ⟨join, flag, expected, pre, read, t, e, hj⟩))]
        exact h.env q q ⟨rfl, hq⟩
      have h2 := Rel.cond (W := W) (t := t) (e := e) (r := r) (b := v == expected) h1 (by simp [St.set])
      simpa using h2
    | cons op ops =>
      left
      have hop : op ∈ blk.ops := by rw [hpre]; simp
      have h1 := off_execOp (W := W) (direct := op.direct) h (avoids_gone hb hop) ((ht.noResult blk hb).1 op hop)
      obtain ⟨l, hl⟩ := hsub
      have hq := restores_quiet hv hj.flag (List.mem_of_getElem? hj.block) (ops := pre) (fun o ho => by simp [ho]) hj.restores op
        (by rw [hl]; simp)
      have h2 := fun s1 => execOp_frame (W := W) (direct := op.direct) (s := s) (s1 := s1) hq.1 hq.2
      simp only [step, List.cons_append]
      revert h1 h2
      generalize execOp W op.direct op s = e1
      generalize execOp W op.direct op s' = e2
      intro h1 h2
      cases h1 with
      | ok h1 => exact ⟨1, .join hj ⟨l ++ [op], by rw [hl]; simp⟩ h1 (by rw [h2 _ rfl]; exact hcellv)⟩
      | error h1 => simp only [h1.world]; exact ⟨0, .done 0 _⟩
      | halt w => exact ⟨0, .done 0 _⟩
      | stuck => exact ⟨0, .done 0 _⟩
  | @cond r t e b s s' h hr =>
    left
    have hval : (valueOf W s (.register r)).bind W.asBool = some b := by
      simp [valueOf, argOf, hr, W.asBool_bool]
    simp only [step, stepTerm, hval]
    cases b with
    | true => exact rel_enter hv ht hE t h
    | false => exact rel_enter hv ht hE e h

theorem edited_same (hv : Valid f) (ht : Tidy f) (hE : Edited f g) (w : σ) : SameBehaviour W f g w := by
  refine sim_indexed (fun n c c' => ConfigAll (IsCell f) f c ∧ Rel W f n c c') ?_ ?_ ?_ ?_ ?_
  · rintro n c c' ⟨_, h⟩
    cases h with
    | done n x => rfl
    | same h => exact congrArg some h.world
    | arm _ _ h => exact congrArg some h.world
    | join _ _ h => exact congrArg some h.world
    | cond h => exact congrArg some h.world
  · rintro n x c' ⟨_, h⟩; cases h; rfl
  · rintro n x c' ⟨_, h⟩; cases h; rfl
  · rintro n c c' ⟨hall, h⟩
    have hall' := configAll_step (W := W) (isCell_keeps hv ht) hall
    rcases rel_step hv ht hE hall h with ⟨m, h⟩ | ⟨m, hm, h⟩
    · exact Or.inl ⟨m, hall', h⟩
    · exact Or.inr ⟨m, hm, hall', h⟩
  · obtain ⟨n, h⟩ := rel_enter (W := W) hv ht hE 0 (s := ⟨fun _ => none, w⟩) Off.refl
    exact ⟨n, configAll_start (fun r _ => Or.inl rfl) w, h⟩

theorem edited_inRange (hr : InRange f) (hE : Edited f g) : InRange g := by
  intro b hb t ht
  rw [hE.len]
  obtain ⟨i, hi⟩ := List.getElem?_of_mem hb
  have hil : i < f.length := by rw [← hE.len]; exact (List.getElem?_eq_some_iff.1 hi).1
  have hfi := List.getElem?_eq_getElem hil
  rcases hE.blocks i _ hfi with hg | ⟨arm, join, hok, hg⟩
  · rw [hg] at hi
    cases hi
    exact hr _ (List.getElem_mem hil) t ht
  · rw [hg] at hi
    cases hi
    simp only [Term.successors, List.mem_singleton] at ht
    subst ht
    obtain ⟨_, flag, expected, pre, read, r, t, e, hj, preS, op, l, postS, b', n, rs, v, _, _, _, _, _, _, _, h8⟩ := hok
    rw [h8]
    have := hr _ (List.mem_of_getElem? hj.block)
    split
    · exact this t (by simp [Term.successors])
    · exact this e (by simp [Term.successors])

end Ferlium.BranchForward
