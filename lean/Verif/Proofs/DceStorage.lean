import Verif.Proofs.DceSim

/-!
# Helper lemmas on the removal of unused computations: what the passes select
-/

namespace Ferlium.Dce

variable {V W : Type}

/-! ## Scans -/

theorem mem_opsAt {b i : Nat} {l : List Op} {s : Site} {op : Op} :
    (s, op) ∈ opsAt b i l ↔ ∃ j, l[j]? = some op ∧ s = (b, i + j) := by
  induction l generalizing i with
  | nil => simp [opsAt]
  | cons a l ih =>
    simp only [opsAt, List.mem_cons, ih, Prod.mk.injEq]
    constructor
    · rintro (⟨rfl, rfl⟩ | ⟨j, h1, rfl⟩)
      · exact ⟨0, rfl, rfl⟩
      · exact ⟨j + 1, by simpa using h1, by simp; omega⟩
    · rintro ⟨j, h1, rfl⟩
      cases j with
      | zero => simp at h1; exact .inl ⟨rfl, h1.symm⟩
      | succ j => exact .inr ⟨j, by simpa using h1, by simp; omega⟩

theorem mem_allOpsFrom {b : Nat} {l : List Block} {s : Site} {op : Op} :
    (s, op) ∈ allOpsFrom b l ↔
      ∃ k blk, l[k]? = some blk ∧ ∃ j, blk.ops[j]? = some op ∧ s = (b + k, j) := by
  induction l generalizing b with
  | nil => simp [allOpsFrom]
  | cons a l ih =>
    simp only [allOpsFrom, List.mem_append, ih, mem_opsAt, Nat.zero_add]
    constructor
    · rintro (⟨j, h1, rfl⟩ | ⟨k, blk, h1, j, h2, rfl⟩)
      · exact ⟨0, a, rfl, j, h1, rfl⟩
      · exact ⟨k + 1, blk, by simpa using h1, j, h2, by simp; omega⟩
    · rintro ⟨k, blk, h1, j, h2, rfl⟩
      cases k with
      | zero => simp at h1; subst h1; exact .inl ⟨j, h2, rfl⟩
      | succ k => exact .inr ⟨k, blk, by simpa using h1, j, h2, by simp; omega⟩

theorem mem_allOps {F : Fn} {s : Site} {op : Op} : (s, op) ∈ F.allOps ↔ F.op? s = some op := by
  simp only [Fn.allOps, mem_allOpsFrom, Nat.zero_add]
  constructor
  · rintro ⟨k, blk, h1, j, h2, rfl⟩
    exact op?_of h1 h2
  · intro h
    obtain ⟨blk, h1, h2⟩ := op?_some h
    exact ⟨s.1, blk, h1, s.2, h2, rfl⟩

theorem Cands.get_mem {c : Cands} {r : Reg} {s : Site} (h : c.get r = some s) : (r, s) ∈ c := by
  simp only [Cands.get, Option.map_eq_some_iff] at h
  obtain ⟨⟨r', s'⟩, h1, h2⟩ := h
  have h3 := List.mem_of_find?_eq_some h1
  have h4 := List.find?_some h1
  simp only [beq_iff_eq] at h4 h2
  subst h4 h2
  exact h3

theorem Cands.get_isSome {c : Cands} {r : Reg} {s : Site} (h : (r, s) ∈ c) :
    (c.get r).isSome := by
  simp only [Cands.get, Option.isSome_map, List.find?_isSome]
  exact ⟨(r, s), h, by simp⟩

/-- Which functions the passes are given. -/
structure WellFormed (F : Fn) : Prop where
  /-- A register is defined by one operation. -/
  ssa : ∀ s s' op op' r, F.op? s = some op → F.op? s' = some op' → op.result = some r →
    op'.result = some r → s = s'
  /-- Or by one terminator. -/
  ssaTerm : ∀ (b : Nat) (blk : Block) r, F.blocks[b]? = some blk → blk.term.result = some r →
    ∀ s op, F.op? s = some op → op.result ≠ some r
  /-- Operations that initialise or end storage define no register. -/
  noResult : ∀ s op, F.op? s = some op →
    op.kind = .store ∨ op.kind = .clone ∨ op.kind = .drop ∨ op.kind = .buildArray ∨
      (∃ info, op.kind = .call info) → op.result = none

theorem trivialCandidates_get {F : Fn} {r : Reg} {s : Site}
    (h : (trivialCandidates F).get r = some s) : ∃ op, F.op? s = some op ∧ op.result = some r ∧
      (op.kind = .compareEqual ∨ op.kind = .load ∨ op.kind = .extractTag) := by
  have := Cands.get_mem h
  simp only [trivialCandidates, List.mem_reverse, List.mem_filterMap] at this
  obtain ⟨⟨s', op⟩, h1, h2⟩ := this
  refine ⟨op, ?_⟩
  simp only [trivialCandidate] at h2
  split at h2 <;> rename_i hk <;> try simp only [Option.map_eq_some_iff, Prod.mk.injEq] at h2
  · obtain ⟨r', h3, rfl, rfl⟩ := h2; exact ⟨mem_allOps.mp h1, h3, .inl hk⟩
  · obtain ⟨r', h3, rfl, rfl⟩ := h2; exact ⟨mem_allOps.mp h1, h3, .inr (.inl hk)⟩
  · obtain ⟨r', h3, rfl, rfl⟩ := h2; exact ⟨mem_allOps.mp h1, h3, .inr (.inr hk)⟩
  · cases h2

theorem trivial_ok (F : Fn) : CandOk F (trivialCandidates F).get 0 where
  op r s h := by
    obtain ⟨op, h1, _⟩ := trivialCandidates_get h
    exact ⟨op, h1, Nat.zero_le _⟩
  inj r r' s h h' := by
    obtain ⟨op, h1, h2, _⟩ := trivialCandidates_get h
    obtain ⟨op', h1', h2', _⟩ := trivialCandidates_get h'
    rw [h1] at h1'; cases h1'
    rw [h2] at h2'; exact Option.some.inj h2'

theorem not_reg_of_kept {F : Fn} {dead : Site → Bool} {r : Reg} (h : kept F dead r = 0) :
    (∀ s op, F.op? s = some op → dead s = false → .reg r ∉ op.operands) ∧
    (∀ (b : Nat) (blk : Block), F.blocks[b]? = some blk → .reg r ∉ blk.term.operands) := by
  constructor
  · intro s op hs hd hm
    have := kept_ge (r := r) hs hd
    have := occ_pos.mpr hm
    omega
  · intro b blk hb hm
    have := kept_ge_term (dead := dead) (r := r) hb
    have := occ_pos.mpr hm
    omega

/-- The removed unread results nobody needs. -/
theorem trivial_harmless {sem : Sem V W} {F : Fn} (wf : WellFormed F)
    (hq : ∀ n k, k = .compareEqual ∨ k = .load ∨ k = .extractTag → Quiet sem k n (fun _ => False))
    {removed : List Site}
    (hrem : ∀ s ∈ removed, ∃ r, (trivialCandidates F).get r = some s ∧
      kept F (· ∈ removed) r = 0) :
    Harmless sem F (· ∈ removed)
      (fun r => ∃ s ∈ removed, (trivialCandidates F).get r = some s) (fun _ => False) := by
  have hk : ∀ r, (∃ s ∈ removed, (trivialCandidates F).get r = some s) →
      kept F (· ∈ removed) r = 0 := by
    rintro r ⟨s, hs, hr⟩
    obtain ⟨r', h1, h2⟩ := hrem s hs
    rw [(trivial_ok F).inj r r' s hr h1]
    exact h2
  refine ⟨fun r h => h.elim, fun r h => h.elim, ?_, ?_, ?_, ?_, ?_, ?_⟩
  · intro s op hs hd x hx hR
    exact (not_reg_of_kept (hk x hR)).1 s op hs hd hx
  · intro b blk hb
    refine ⟨fun x hx hR => (not_reg_of_kept (hk x hR)).2 b blk hb hx, ?_⟩
    rintro r hr ⟨s, hs, hc⟩
    obtain ⟨op, h1, h2, _⟩ := trivialCandidates_get hc
    exact wf.ssaTerm b blk r hb hr s op h1 h2
  · rintro s op r hs hd hr ⟨s', hs', hc⟩
    obtain ⟨op', h1, h2, _⟩ := trivialCandidates_get hc
    have := wf.ssa s s' op op' r hs h1 hr h2
    subst this
    simp [hs'] at hd
  · intro s op r _ _ h
    exact h.elim
  · intro s op r hs hd hr
    simp only [decide_eq_true_eq] at hd
    obtain ⟨r', h1, _⟩ := hrem s hd
    obtain ⟨op', h2, h3, h4⟩ := trivialCandidates_get h1
    rw [hs] at h2; cases h2
    rw [hr] at h3; cases h3
    refine ⟨⟨s, hd, h1⟩, fun hk => ?_⟩
    rw [hk] at h4
    simp at h4
  · intro s op hs hd _
    simp only [decide_eq_true_eq] at hd
    obtain ⟨r', h1, _⟩ := hrem s hd
    obtain ⟨op', h2, _, h4⟩ := trivialCandidates_get h1
    rw [hs] at h2; cases h2
    intro args w hlen
    obtain ⟨e, h5, h6, h7⟩ := hq _ _ h4 args w hlen
    exact ⟨e, h5, h6, fun i v hv => (h7 i v hv).elim⟩

/-! ## Calls -/

theorem callResultIndex_some {info : CallInfo} {l : List Operand} {i : Nat}
    (h : callResultIndex info l = some i) : info.args + 2 ≤ l.length ∧ i + 1 = l.length := by
  simp only [callResultIndex] at h
  split at h
  · simp only [Option.some.injEq] at h; omega
  · cases h

theorem callCandidate_some {p : Site × Op} {r : Reg} {s : Site}
    (h : callCandidate p = some (r, s)) : s = p.1 ∧ ∃ info n i, p.2.kind = .call info ∧
      p.2.operands.length = info.args + 2 + n ∧ eligible info n = true ∧
      i + 1 = p.2.operands.length ∧ p.2.operands[i]? = some (.reg r) := by
  simp only [callCandidate] at h
  split at h
  · rename_i info hk
    split at h
    · cases h
    · rename_i i hi
      obtain ⟨h1, h2⟩ := callResultIndex_some hi
      split at h
      · split at h
        · rename_i hel
          split at h
          · rename_i r' hr
            simp only [Option.some.injEq, Prod.mk.injEq] at h
            obtain ⟨rfl, rfl⟩ := h
            exact ⟨rfl, info, _, i, hk, by omega, hel, h2, hr⟩
          · cases h
        · cases h
      · cases h
  · cases h

theorem allocas_mem {F : Fn} {r : Reg} {s : Site} :
    (r, s) ∈ allocas F ↔ ∃ op, F.op? s = some op ∧ op.kind = .alloca ∧ op.result = some r := by
  simp only [allocas, List.mem_reverse, List.mem_filterMap]
  constructor
  · rintro ⟨⟨s', op⟩, h1, h2⟩
    simp only [allocaOf] at h2
    split at h2
    · rename_i hk
      simp only [Option.map_eq_some_iff, Prod.mk.injEq] at h2
      obtain ⟨r', h3, rfl, rfl⟩ := h2
      exact ⟨op, mem_allOps.mp h1, hk, h3⟩
    · cases h2
  · rintro ⟨op, h1, h2, h3⟩
    exact ⟨(s, op), mem_allOps.mpr h1, by simp [allocaOf, h2, h3]⟩

theorem callCandidates_get {F : Fn} {r : Reg} {s : Site}
    (h : (callCandidates F).get r = some s) : Local F r ∧ ∃ op info n i, F.op? s = some op ∧
      op.kind = .call info ∧ op.operands.length = info.args + 2 + n ∧ eligible info n = true ∧
      i + 1 = op.operands.length ∧ op.operands[i]? = some (.reg r) := by
  have := Cands.get_mem h
  simp only [callCandidates, List.mem_filter, List.mem_reverse, List.mem_filterMap] at this
  obtain ⟨⟨p, hp, hc⟩, ha⟩ := this
  obtain ⟨rfl, info, n, i, h1⟩ := callCandidate_some hc
  obtain ⟨d, hd⟩ := Option.isSome_iff_exists.mp ha
  obtain ⟨op, h2, h3, h4⟩ := allocas_mem.mp (Cands.get_mem hd)
  exact ⟨⟨d, op, h2, h3, h4⟩, p.2, info, n, i, mem_allOps.mp hp, h1⟩

theorem call_ok (F : Fn) : CandOk F (callCandidates F).get 1 where
  op r s h := by
    obtain ⟨_, op, info, n, i, h1, _, _, _, _, h2⟩ := callCandidates_get h
    exact ⟨op, h1, occ_pos.mpr (List.mem_of_getElem? h2)⟩
  inj r r' s h h' := by
    obtain ⟨_, op, info, n, i, h1, _, _, _, h3, h2⟩ := callCandidates_get h
    obtain ⟨_, op', info', n', i', h1', _, _, _, h3', h2'⟩ := callCandidates_get h'
    rw [h1] at h1'; cases h1'
    have : i = i' := by omega
    subst this
    rw [h2] at h2'; cases h2'; rfl

/-- The removed calls nobody needs. -/
theorem call_harmless {sem : Sem V W} {F : Fn} (wf : WellFormed F)
    (hq : ∀ info n, eligible info n = true →
      Quiet sem (.call info) (info.args + 2 + n) (fun i => i + 1 = info.args + 2 + n))
    {removed : List Site}
    (hrem : ∀ s ∈ removed, ∃ r, (callCandidates F).get r = some s ∧
      kept F (· ∈ removed) r = 0) :
    Harmless sem F (· ∈ removed)
      (fun r => ∃ s ∈ removed, (callCandidates F).get r = some s)
      (fun r => ∃ s ∈ removed, (callCandidates F).get r = some s) := by
  have hk : ∀ r, (∃ s ∈ removed, (callCandidates F).get r = some s) →
      kept F (· ∈ removed) r = 0 := by
    rintro r ⟨s, hs, hr⟩
    obtain ⟨r', h1, h2⟩ := hrem s hs
    rw [(call_ok F).inj r r' s hr h1]
    exact h2
  have hdef : ∀ s op r, F.op? s = some op → op.result = some r →
      (∃ s ∈ removed, (callCandidates F).get r = some s) → op.kind = .alloca := by
    rintro s op r hs hr ⟨s', _, hc⟩
    obtain ⟨⟨d, op', h1, h2, h3⟩, _⟩ := callCandidates_get hc
    have := wf.ssa s d op op' r hs h1 hr h3
    subst this
    rw [hs] at h1; cases h1
    exact h2
  have hnone : ∀ s ∈ removed, ∀ op, F.op? s = some op →
      op.result = none ∧ op.kind ≠ .alloca := by
    intro s hs op hop
    obtain ⟨r', h1, _⟩ := hrem s hs
    obtain ⟨_, op', info, n, i, h2, h3, _⟩ := callCandidates_get h1
    rw [hop] at h2; cases h2
    exact ⟨wf.noResult s op hop (.inr (.inr (.inr (.inr ⟨info, h3⟩)))), by rw [h3]; simp⟩
  refine ⟨fun r h => h, ?_, ?_, ?_, ?_, hdef, ?_, ?_⟩
  · rintro r ⟨s, _, hc⟩
    exact (callCandidates_get hc).1
  · intro s op hs hd x hx hR
    exact (not_reg_of_kept (hk x hR)).1 s op hs hd hx
  · intro b blk hb
    refine ⟨fun x hx hR => (not_reg_of_kept (hk x hR)).2 b blk hb hx, ?_⟩
    rintro r hr ⟨s, hs, hc⟩
    obtain ⟨⟨d, op', h1, h2, h3⟩, _⟩ := callCandidates_get hc
    exact wf.ssaTerm b blk r hb hr d op' h1 h3
  · intro s op r hs hd hr hR
    exact ⟨hdef s op r hs hr hR, hR⟩
  · intro s op r hs hd hr
    simp only [decide_eq_true_eq] at hd
    rw [(hnone s hd op hs).1] at hr
    cases hr
  · intro s op hs hd _
    simp only [decide_eq_true_eq] at hd
    obtain ⟨r, h1, _⟩ := hrem s hd
    obtain ⟨_, op', info, n, i, h2, h3, h4, h5, h6, h7⟩ := callCandidates_get h1
    rw [hs] at h2; cases h2
    intro args w hlen
    rw [h3]
    obtain ⟨e, h8, h9, h10⟩ := hq info n h5 args w (by omega)
    refine ⟨e, h8, h9, fun j v hv => ⟨r, ?_, s, hd, h1⟩⟩
    have := h10 j v hv
    have : j = i := by omega
    rw [this, h7]

/-! ## The census of an allocation -/

/-- What the census says about a use at position `pos` of the operation `op`. -/
structure Covered (F : Fn) (admit : Bool) (s : Site) (op : Op) (pos : Nat)
    (a : AllocationUses) : Prop where
  store : removableStore F admit op pos = true → s ∈ a.removableStores
  deferred : removableStore F admit op pos = false →
    (isConstructor op pos || isDrop op pos) = true → a.deferred = true
  invalid : removableStore F admit op pos = false →
    (isConstructor op pos || isDrop op pos) = false → a.storageOnlyInvalid = true
  invalidC : isConstructor op pos = false → isDrop op pos = false → a.invalidConstruction = true
  constr : isConstructor op pos = true → a.constructor = some s ∨ a.invalidConstruction = true
  drop : isConstructor op pos = false → isDrop op pos = true → s ∈ a.drops

/-- The census only grows. -/
structure Grows (a b : AllocationUses) : Prop where
  store : ∀ s ∈ a.removableStores, s ∈ b.removableStores
  deferred : a.deferred = true → b.deferred = true
  invalid : a.storageOnlyInvalid = true → b.storageOnlyInvalid = true
  invalidC : a.invalidConstruction = true → b.invalidConstruction = true
  constr : ∀ s, a.constructor = some s → b.constructor = some s ∨ b.invalidConstruction = true
  drop : ∀ s ∈ a.drops, s ∈ b.drops

theorem Grows.refl (a : AllocationUses) : Grows a a :=
  ⟨fun _ h => h, id, id, id, fun _ h => .inl h, fun _ h => h⟩

theorem Grows.trans {a b c : AllocationUses} (h : Grows a b) (h' : Grows b c) : Grows a c where
  store s hs := h'.store s (h.store s hs)
  deferred := h'.deferred ∘ h.deferred
  invalid := h'.invalid ∘ h.invalid
  invalidC := h'.invalidC ∘ h.invalidC
  constr s hs := by
    rcases h.constr s hs with h1 | h1
    · exact h'.constr s h1
    · exact .inr (h'.invalidC h1)
  drop s hs := h'.drop s (h.drop s hs)

theorem Covered.mono {F : Fn} {admit : Bool} {s : Site} {op : Op} {pos : Nat}
    {a b : AllocationUses} (h : Covered F admit s op pos a) (g : Grows a b) :
    Covered F admit s op pos b where
  store h1 := g.store s (h.store h1)
  deferred h1 h2 := g.deferred (h.deferred h1 h2)
  invalid h1 h2 := g.invalid (h.invalid h1 h2)
  invalidC h1 h2 := g.invalidC (h.invalidC h1 h2)
  constr h1 := by
    rcases h.constr h1 with h2 | h2
    · exact g.constr s h2
    · exact .inr (g.invalidC h2)
  drop h1 h2 := g.drop s (h.drop h1 h2)

/-- Everything in the census stems from a use of `r`. -/
structure Backed (F : Fn) (admit : Bool) (r : Reg) (a : AllocationUses) : Prop where
  store : ∀ s ∈ a.removableStores, ∃ op pos, F.op? s = some op ∧
    op.operands[pos]? = some (.reg r) ∧ removableStore F admit op pos = true
  constr : ∀ s, a.constructor = some s → ∃ op pos, F.op? s = some op ∧
    op.operands[pos]? = some (.reg r) ∧ isConstructor op pos = true
  drop : ∀ s ∈ a.drops, ∃ op pos, F.op? s = some op ∧
    op.operands[pos]? = some (.reg r) ∧ isDrop op pos = true
  both : a.storageOnlyInvalid = true → a.invalidConstruction = true

theorem noteUse_grows (F : Fn) (admit : Bool) (s : Site) (op : Op) (pos : Nat)
    (a : AllocationUses) : Grows a (noteUse F admit s op pos a) := by
  refine ⟨?_, ?_, ?_, ?_, ?_, ?_⟩
  · intro s' h
    simp only [noteUse]
    split
    · exact List.mem_append_left _ h
    · exact h
  · intro h; simp [noteUse, h]
  · intro h; simp [noteUse, h]
  · intro h; simp [noteUse, h]
  · intro s' h
    simp only [noteUse, h]
    cases isConstructor op pos <;> simp
  · intro s' h
    simp only [noteUse]
    split
    · exact List.mem_append_left _ h
    · exact h

theorem noteUse_covered (F : Fn) (admit : Bool) (s : Site) (op : Op) (pos : Nat)
    (a : AllocationUses) : Covered F admit s op pos (noteUse F admit s op pos a) := by
  refine ⟨?_, ?_, ?_, ?_, ?_, ?_⟩
  · intro h; simp [noteUse, h]
  · intro h h'; simp only [noteUse, h, h']; simp
  · intro h h'; simp only [noteUse, h, h']; simp
  · intro h h'; simp only [noteUse, h, h']; simp
  · intro h; simp [noteUse, h]
  · intro h h'; simp only [noteUse, h, h']; simp

theorem noteUse_backed {F : Fn} {admit : Bool} {r : Reg} {s : Site} {op : Op} {pos : Nat}
    {a : AllocationUses} (ho : F.op? s = some op) (hp : op.operands[pos]? = some (.reg r))
    (h : Backed F admit r a) : Backed F admit r (noteUse F admit s op pos a) := by
  refine ⟨?_, ?_, ?_, ?_⟩
  · intro s' hs'
    simp only [noteUse] at hs'
    split at hs'
    · rename_i hr
      rcases List.mem_append.mp hs' with h1 | h1
      · exact h.store s' h1
      · simp at h1; subst h1; exact ⟨op, pos, ho, hp, hr⟩
    · exact h.store s' hs'
  · intro s' hs'
    simp only [noteUse] at hs'
    split at hs'
    · rename_i hr
      cases hs'
      exact ⟨op, pos, ho, hp, hr⟩
    · exact h.constr s' hs'
  · intro s' hs'
    simp only [noteUse] at hs'
    split at hs'
    · rename_i hr
      simp only [Bool.and_eq_true] at hr
      rcases List.mem_append.mp hs' with h1 | h1
      · exact h.drop s' h1
      · simp at h1; subst h1; exact ⟨op, pos, ho, hp, hr.2⟩
    · exact h.drop s' hs'
  · intro h1
    simp only [noteUse, Bool.or_eq_true, Bool.and_eq_true, Bool.not_eq_true',
      Bool.or_eq_false_iff] at h1 ⊢
    rcases h1 with h1 | h1
    · exact .inl (.inl (h.both h1))
    · exact .inr h1.2

theorem noteOperands_spec {F : Fn} {admit : Bool} {r : Reg} {s : Site} {op : Op}
    (ho : F.op? s = some op) (l : List Operand) (pos : Nat) (a : AllocationUses)
    (hl : ∀ (j : Nat) o, l[j]? = some o → op.operands[pos + j]? = some o)
    (h : Backed F admit r a) :
    Grows a (noteOperands F admit r s op pos l a) ∧
    Backed F admit r (noteOperands F admit r s op pos l a) ∧
    ∀ j : Nat, l[j]? = some (.reg r) →
      Covered F admit s op (pos + j) (noteOperands F admit r s op pos l a) := by
  induction l generalizing pos a with
  | nil => exact ⟨.refl a, h, by simp⟩
  | cons o l ih =>
    have hl' : ∀ (j : Nat) o, l[j]? = some o → op.operands[pos + 1 + j]? = some o := by
      intro j o hj
      have := hl (j + 1) o (by simpa using hj)
      rwa [show pos + (j + 1) = pos + 1 + j by omega] at this
    simp only [noteOperands]
    by_cases e : o = .reg r
    · rw [if_pos e]
      have h0 : op.operands[pos]? = some (.reg r) := by
        have := hl 0 o rfl
        rw [e] at this
        exact this
      obtain ⟨h1, h2, h3⟩ := ih (pos + 1) _ hl' (noteUse_backed ho h0 h)
      refine ⟨(noteUse_grows F admit s op pos a).trans h1, h2, ?_⟩
      intro j hj
      cases j with
      | zero => exact (noteUse_covered F admit s op pos a).mono h1
      | succ j =>
        have := h3 j (by simpa using hj)
        rwa [show pos + 1 + j = pos + (j + 1) by omega] at this
    · rw [if_neg e]
      obtain ⟨h1, h2, h3⟩ := ih (pos + 1) a hl' h
      refine ⟨h1, h2, ?_⟩
      intro j hj
      cases j with
      | zero => simp at hj; exact absurd hj e
      | succ j =>
        have := h3 j (by simpa using hj)
        rwa [show pos + 1 + j = pos + (j + 1) by omega] at this

theorem noteOps_spec {F : Fn} {admit : Bool} {r : Reg} (b : Nat) (l : List Op) (i : Nat)
    (a : AllocationUses)
    (hl : ∀ (j : Nat) op, l[j]? = some op → F.op? (b, i + j) = some op)
    (h : Backed F admit r a) :
    Grows a (noteOps F admit r b i l a) ∧ Backed F admit r (noteOps F admit r b i l a) ∧
    ∀ (j : Nat) op, l[j]? = some op → ∀ pos : Nat, op.operands[pos]? = some (.reg r) →
      Covered F admit (b, i + j) op pos (noteOps F admit r b i l a) := by
  induction l generalizing i a with
  | nil => exact ⟨.refl a, h, by simp⟩
  | cons o l ih =>
    have hl' : ∀ (j : Nat) op, l[j]? = some op → F.op? (b, i + 1 + j) = some op := by
      intro j o hj
      have := hl (j + 1) o (by simpa using hj)
      rwa [show i + (j + 1) = i + 1 + j by omega] at this
    simp only [noteOps]
    have h0 := hl 0 o rfl
    obtain ⟨g1, g2, g3⟩ := noteOperands_spec (r := r) h0 o.operands 0 a
      (fun j o' hj => by rwa [Nat.zero_add]) h
    obtain ⟨h1, h2, h3⟩ := ih (i + 1) _ hl' g2
    refine ⟨g1.trans h1, h2, ?_⟩
    intro j op hj pos hp
    cases j with
    | zero =>
      simp at hj
      subst hj
      have := (g3 pos hp).mono h1
      rwa [Nat.zero_add] at this
    | succ j =>
      have := h3 j op (by simpa using hj) pos hp
      rwa [show i + 1 + j = i + (j + 1) by omega] at this

theorem noteTerm_grows (r : Reg) (t : Term) (a : AllocationUses) : Grows a (noteTerm r t a) := by
  simp only [noteTerm]
  split
  · exact ⟨fun _ h => h, id, fun _ => rfl, fun _ => rfl, fun _ h => .inl h, fun _ h => h⟩
  · exact .refl a

theorem noteTerm_backed {F : Fn} {admit : Bool} {r : Reg} (t : Term) {a : AllocationUses}
    (h : Backed F admit r a) : Backed F admit r (noteTerm r t a) := by
  simp only [noteTerm]
  split
  · exact ⟨h.store, h.constr, h.drop, fun _ => rfl⟩
  · exact h

theorem noteBlocks_spec {F : Fn} {admit : Bool} {r : Reg} (l : List Block) (b : Nat)
    (a : AllocationUses)
    (hl : ∀ (k : Nat) blk, l[k]? = some blk → F.blocks[b + k]? = some blk)
    (h : Backed F admit r a) :
    Grows a (noteBlocks F admit r b l a) ∧ Backed F admit r (noteBlocks F admit r b l a) ∧
    ∀ (k : Nat) (blk : Block), l[k]? = some blk →
      (∀ (j : Nat) op, blk.ops[j]? = some op → ∀ pos : Nat, op.operands[pos]? = some (.reg r) →
        Covered F admit (b + k, j) op pos (noteBlocks F admit r b l a)) ∧
      (.reg r ∈ blk.term.operands → (noteBlocks F admit r b l a).storageOnlyInvalid = true) := by
  induction l generalizing b a with
  | nil => exact ⟨.refl a, h, by simp⟩
  | cons o l ih =>
    have hl' : ∀ (k : Nat) blk, l[k]? = some blk → F.blocks[b + 1 + k]? = some blk := by
      intro j o hj
      have := hl (j + 1) o (by simpa using hj)
      rwa [show b + (j + 1) = b + 1 + j by omega] at this
    simp only [noteBlocks]
    have h0 : F.blocks[b]? = some o := hl 0 o rfl
    obtain ⟨g1, g2, g3⟩ := noteOps_spec (r := r) (admit := admit) b o.ops 0 a
      (fun j op hj => by rw [Nat.zero_add]; exact op?_of h0 hj) h
    have gt := noteTerm_grows r o.term (noteOps F admit r b 0 o.ops a)
    obtain ⟨h1, h2, h3⟩ := ih (b + 1) _ hl' (noteTerm_backed o.term g2)
    refine ⟨(g1.trans gt).trans h1, h2, ?_⟩
    intro k blk hk
    cases k with
    | zero =>
      simp at hk
      subst hk
      refine ⟨?_, ?_⟩
      · intro j op hj pos hp
        have := (g3 j op hj pos hp).mono (gt.trans h1)
        rwa [Nat.zero_add] at this
      · intro hm
        apply h1.invalid
        simp [noteTerm, hm]
    | succ k =>
      have := h3 k blk (by simpa using hk)
      rwa [show b + 1 + k = b + (k + 1) by omega] at this

theorem census_spec (F : Fn) (admit : Bool) (r : Reg) :
    Backed F admit r (census F admit r) ∧
    (∀ s op, F.op? s = some op → ∀ pos : Nat, op.operands[pos]? = some (.reg r) →
      Covered F admit s op pos (census F admit r)) ∧
    (∀ (b : Nat) (blk : Block), F.blocks[b]? = some blk → .reg r ∈ blk.term.operands →
      (census F admit r).storageOnlyInvalid = true) := by
  obtain ⟨_, h2, h3⟩ := noteBlocks_spec (F := F) (admit := admit) (r := r) F.blocks 0 .empty
    (fun k blk h => by rwa [Nat.zero_add])
    ⟨by simp [AllocationUses.empty], by simp [AllocationUses.empty],
      by simp [AllocationUses.empty], by simp [AllocationUses.empty]⟩
  refine ⟨h2, ?_, ?_⟩
  · intro s op hs pos hp
    obtain ⟨blk, hb, ho⟩ := op?_some hs
    have := (h3 s.1 blk hb).1 s.2 op ho pos hp
    rwa [Nat.zero_add] at this
  · intro b blk hb hm
    exact (h3 b blk hb).2 hm

/-! ## Dead allocations -/

/-- The storage that goes. -/
def Gone (F : Fn) (admit : Bool) (r : Reg) : Prop :=
  ∃ d, (r, d) ∈ allocas F ∧ (census F admit r).dead = true

theorem removable_dead {F : Fn} {admit : Bool} {r : Reg}
    (h : (census F admit r).removable = true) : (census F admit r).dead = true := by
  have hb := (census_spec F admit r).1.both
  simp only [AllocationUses.dead, h]
  simp only [AllocationUses.removable, Bool.and_eq_true, Bool.not_eq_true'] at h
  cases hs : (census F admit r).storageOnlyInvalid with
  | false => simp
  | true => rw [hb hs] at h; simp at h

theorem deadStorage_mem {F : Fn} {admit : Bool} {s : Site} (h : s ∈ deadStorage F admit) :
    ∃ op, F.op? s = some op ∧ ∃ r, Gone F admit r ∧
      ((op.kind = .alloca ∧ op.result = some r) ∨
       ∃ pos : Nat, op.operands[pos]? = some (.reg r) ∧
        ((op.kind = .store ∧ pos = 1) ∨ (op.kind = .buildArray ∧ pos + 1 = op.operands.length) ∨
         (op.kind = .clone ∧ pos = 1) ∨ (op.kind = .drop ∧ pos = 0))) := by
  simp only [deadStorage, List.mem_flatMap] at h
  obtain ⟨⟨r, d⟩, hrd, hs⟩ := h
  obtain ⟨hback, _⟩ := census_spec F admit r
  simp only [deadOf, List.mem_append] at hs
  rcases hs with hs | hs
  · split at hs
    · rename_i hrem
      have hg : Gone F admit r := ⟨d, hrd, removable_dead hrem⟩
      rcases List.mem_append.mp hs with hs | hs
      · have : (census F admit r).constructor = some s := by simpa using hs
        obtain ⟨op, pos, h1, h2, h3⟩ := hback.constr s this
        refine ⟨op, h1, r, hg, .inr ⟨pos, h2, ?_⟩⟩
        simp only [isConstructor, Bool.or_eq_true, Bool.and_eq_true, decide_eq_true_eq,
          beq_iff_eq] at h3
        rcases h3 with (h3 | h3) | h3
        · exact .inr (.inl h3)
        · exact .inl h3.1
        · exact .inr (.inr (.inl h3))
      · obtain ⟨op, pos, h1, h2, h3⟩ := hback.drop s hs
        refine ⟨op, h1, r, hg, .inr ⟨pos, h2, ?_⟩⟩
        simp only [isDrop, Bool.and_eq_true, decide_eq_true_eq, beq_iff_eq] at h3
        exact .inr (.inr (.inr h3))
    · cases hs
  · split at hs
    · rename_i hdead
      have hg : Gone F admit r := ⟨d, hrd, hdead⟩
      rcases List.mem_cons.mp hs with rfl | hs
      · obtain ⟨op, h1, h2, h3⟩ := allocas_mem.mp hrd
        exact ⟨op, h1, r, hg, .inl ⟨h2, h3⟩⟩
      · obtain ⟨op, pos, h1, h2, h3⟩ := hback.store s hs
        refine ⟨op, h1, r, hg, .inr ⟨pos, h2, ?_⟩⟩
        simp only [removableStore, Bool.and_eq_true, decide_eq_true_eq, beq_iff_eq] at h3
        exact .inl h3.1
    · cases hs

/-- All operations that name storage that goes, go. -/
theorem gone_use {F : Fn} {admit : Bool} {r : Reg} (hg : Gone F admit r) {s : Site} {op : Op}
    (hs : F.op? s = some op) (hm : .reg r ∈ op.operands) : s ∈ deadStorage F admit := by
  obtain ⟨d, hrd, hdead⟩ := hg
  obtain ⟨pos, hpos⟩ := List.mem_iff_getElem?.mp hm
  have hc := (census_spec F admit r).2.1 s op hs pos hpos
  simp only [deadStorage, List.mem_flatMap]
  refine ⟨(r, d), hrd, ?_⟩
  simp only [deadOf, List.mem_append]
  have hdead' := hdead
  simp only [AllocationUses.dead, Bool.not_eq_true', Bool.or_eq_false_iff] at hdead'
  cases hr : removableStore F admit op pos with
  | true =>
    right
    rw [if_pos hdead]
    exact List.mem_cons_of_mem _ (hc.store hr)
  | false =>
    cases hk : (isConstructor op pos || isDrop op pos) with
    | false => rw [hc.invalid hr hk] at hdead'; simp at hdead'
    | true =>
      left
      have hrem : (census F admit r).removable = true := by
        have := hdead'.2
        rw [hc.deferred hr hk] at this
        simpa using this
      rw [if_pos hrem]
      have hinv : (census F admit r).invalidConstruction = false := by
        simp only [AllocationUses.removable, Bool.and_eq_true, Bool.not_eq_true'] at hrem
        exact hrem.1.1
      apply List.mem_append.mpr
      cases hcon : isConstructor op pos with
      | true =>
        rcases hc.constr hcon with h | h
        · left; simp [h]
        · rw [hinv] at h; cases h
      | false =>
        rw [hcon] at hk
        exact .inr (hc.drop hcon (by simpa using hk))

theorem gone_def {F : Fn} {admit : Bool} {r : Reg} (wf : WellFormed F) (hg : Gone F admit r)
    {s : Site} {op : Op} (hs : F.op? s = some op) (hr : op.result = some r) :
    s ∈ deadStorage F admit ∧ op.kind = .alloca := by
  obtain ⟨d, hrd, hdead⟩ := hg
  obtain ⟨op', h1, h2, h3⟩ := allocas_mem.mp hrd
  have := wf.ssa s d op op' r hs h1 hr h3
  subst this
  rw [hs] at h1; cases h1
  refine ⟨?_, h2⟩
  simp only [deadStorage, List.mem_flatMap]
  refine ⟨(r, s), hrd, ?_⟩
  simp only [deadOf, List.mem_append, if_pos hdead]
  exact .inr List.mem_cons_self

end Ferlium.Dce
