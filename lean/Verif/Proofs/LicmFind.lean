import Verif.Proofs.LicmSim

/-!
# Moving calls out of loops: what is found may be moved
-/

namespace Ferlium.Licm

/-! ## Sites -/

theorem mem_opsFrom {b b' i : Nat} {op : Op} : ∀ {l : List Op} {k : Nat},
    ((b', i), op) ∈ opsFrom b k l ↔ b' = b ∧ k ≤ i ∧ l[i - k]? = some op
  | [], k => by simp [opsFrom]
  | a :: l, k => by
    simp only [opsFrom, List.mem_cons, Prod.mk.injEq, mem_opsFrom (l := l) (k := k + 1)]
    constructor
    · rintro (⟨⟨rfl, rfl⟩, rfl⟩ | ⟨rfl, h1, h2⟩)
      · simp
      · refine ⟨rfl, by omega, ?_⟩
        obtain ⟨j, rfl⟩ : ∃ j, i = k + 1 + j := ⟨i - (k + 1), by omega⟩
        rw [show k + 1 + j - k = j + 1 by omega]
        simpa using h2
    · rintro ⟨rfl, h1, h2⟩
      by_cases e : i = k
      · subst e; left; simpa [eq_comm] using h2
      · right
        refine ⟨rfl, by omega, ?_⟩
        obtain ⟨j, rfl⟩ : ∃ j, i = k + 1 + j := ⟨i - (k + 1), by omega⟩
        rw [show k + 1 + j - k = j + 1 by omega] at h2
        simpa using h2

theorem mem_sitesFrom {b i : Nat} {op : Op} : ∀ {l : List Block} {k : Nat},
    ((b, i), op) ∈ sitesFrom k l ↔ k ≤ b ∧ ∃ blk, l[b - k]? = some blk ∧ blk.ops[i]? = some op
  | [], k => by simp [sitesFrom]
  | a :: l, k => by
    simp only [sitesFrom, List.mem_append, mem_opsFrom (k := 0), mem_sitesFrom (l := l) (k := k + 1)]
    constructor
    · rintro (⟨rfl, _, h⟩ | ⟨h1, blk, h2, h3⟩)
      · exact ⟨Nat.le_refl _, a, by simp, by simpa using h⟩
      · refine ⟨by omega, blk, ?_, h3⟩
        obtain ⟨j, rfl⟩ : ∃ j, b = k + 1 + j := ⟨b - (k + 1), by omega⟩
        rw [show k + 1 + j - k = j + 1 by omega]
        simpa using h2
    · rintro ⟨h1, blk, h2, h3⟩
      by_cases e : b = k
      · subst e; left
        simp only [Nat.sub_self, List.getElem?_cons_zero, Option.some.injEq] at h2
        subst h2
        exact ⟨rfl, Nat.zero_le _, by simpa using h3⟩
      · right
        refine ⟨by omega, blk, ?_, h3⟩
        obtain ⟨j, rfl⟩ : ∃ j, b = k + 1 + j := ⟨b - (k + 1), by omega⟩
        rw [show k + 1 + j - k = j + 1 by omega] at h2
        simpa using h2

theorem mem_sites {F : Fn} {b i : Nat} {op : Op} :
    ((b, i), op) ∈ F.sites ↔ ∃ blk, F[b]? = some blk ∧ blk.ops[i]? = some op := by
  unfold Fn.sites
  rw [mem_sitesFrom]; simp

theorem At.ofSites {F : Fn} {s : Site} {op : Op} (h : (s, op) ∈ F.sites) : At F s.1 s.2 op := by
  obtain ⟨blk, h1, h2⟩ := mem_sites.mp h
  exact .ofOps h1 h2

theorem At.same {F : Fn} {b i : Nat} {op op' : Op} (h : At F b i op) (h' : At F b i op') : op = op' := by
  obtain ⟨blk, h1, h2⟩ := h
  obtain ⟨blk', h1', h2'⟩ := h'
  rw [h1] at h1'; cases h1'
  rw [h2] at h2'; exact Option.some.inj h2'

/-- An operation is among the operations of its block, or that of the terminator. -/
theorem At.cases {F : Fn} {b i : Nat} {op : Op} (h : At F b i op) : ∃ blk, F[b]? = some blk ∧
    (blk.ops[i]? = some op ∨ (i = blk.ops.length ∧ blk.term.op = some op)) := by
  obtain ⟨blk, h1, h2⟩ := h
  refine ⟨blk, h1, ?_⟩
  unfold Block.all at h2
  by_cases hi : i < blk.ops.length
  · rw [List.getElem?_append_left hi] at h2; exact .inl h2
  · rw [List.getElem?_append_right (by omega)] at h2
    right
    cases ht : blk.term.op with
    | none => simp [ht] at h2
    | some o =>
      simp only [ht, Option.toList_some] at h2
      have := lt_of_getElem? h2
      simp at this
      refine ⟨by omega, ?_⟩
      have e : i - blk.ops.length = 0 := by omega
      rw [e] at h2
      simpa using h2

theorem ownRoot_result {op : Op} {q : Root} (h : ownRoot op = some q) : ∃ r, op.result = some r ∧ (q = .alloca r ∨ q = .dict r) := by
  unfold ownRoot at h
  cases hr : op.result with
  | none => simp [hr] at h
  | some r =>
    refine ⟨r, rfl, ?_⟩
    simp only [hr] at h
    split at h <;> simp_all

theorem ownRoot_same {op op' : Op} {q : Root} (h : ownRoot op = some q) (h' : ownRoot op' = some q) :
    ∃ r, op.result = some r ∧ op'.result = some r := by
  obtain ⟨r, h1, h2⟩ := ownRoot_result h
  obtain ⟨r', h1', h2'⟩ := ownRoot_result h'
  refine ⟨r, h1, ?_⟩
  rcases h2 with rfl | rfl <;> rcases h2' with h2' | h2' <;> cases h2' <;> exact h1'

/-! ## Roots -/

theorem RootOf.functional {F : Fn} (wf : Wf F) {r : Reg} {q : Root} (h : RootOf F r q) : ∀ {q'}, RootOf F r q' → q = q' := by
  induction h with
  | own hs hr ho =>
    intro q' h'
    cases h' with
    | own hs' hr' ho' =>
      obtain ⟨e1, e2⟩ := wf.single (.ofSites hs) (.ofSites hs') hr hr'
      have := At.same (.ofSites hs) (by rw [e1, e2]; exact .ofSites hs')
      subst this
      rw [ho] at ho'; exact Option.some.inj ho'
    | part hs' hr' hk' _ _ =>
      obtain ⟨e1, e2⟩ := wf.single (.ofSites hs) (.ofSites hs') hr hr'
      have := At.same (.ofSites hs) (by rw [e1, e2]; exact .ofSites hs')
      subst this
      simp [ownRoot, hr, hk'] at ho
    | partParam hs' hr' hk' _ =>
      obtain ⟨e1, e2⟩ := wf.single (.ofSites hs) (.ofSites hs') hr hr'
      have := At.same (.ofSites hs) (by rw [e1, e2]; exact .ofSites hs')
      subst this
      simp [ownRoot, hr, hk'] at ho
  | part hs hr hk hx _ ih =>
    intro q' h'
    cases h' with
    | own hs' hr' ho' =>
      obtain ⟨e1, e2⟩ := wf.single (.ofSites hs) (.ofSites hs') hr hr'
      have := At.same (.ofSites hs) (by rw [e1, e2]; exact .ofSites hs')
      subst this
      simp [ownRoot, hr, hk] at ho'
    | part hs' hr' hk' hx' h' =>
      obtain ⟨e1, e2⟩ := wf.single (.ofSites hs) (.ofSites hs') hr hr'
      have := At.same (.ofSites hs) (by rw [e1, e2]; exact .ofSites hs')
      subst this
      rw [hx] at hx'; cases hx'
      exact ih h'
    | partParam hs' hr' hk' hx' =>
      obtain ⟨e1, e2⟩ := wf.single (.ofSites hs) (.ofSites hs') hr hr'
      have := At.same (.ofSites hs) (by rw [e1, e2]; exact .ofSites hs')
      subst this
      rw [hx] at hx'; cases hx'
  | partParam hs hr hk hx =>
    intro q' h'
    cases h' with
    | own hs' hr' ho' =>
      obtain ⟨e1, e2⟩ := wf.single (.ofSites hs) (.ofSites hs') hr hr'
      have := At.same (.ofSites hs) (by rw [e1, e2]; exact .ofSites hs')
      subst this
      simp [ownRoot, hr, hk] at ho'
    | part hs' hr' hk' hx' h' =>
      obtain ⟨e1, e2⟩ := wf.single (.ofSites hs) (.ofSites hs') hr hr'
      have := At.same (.ofSites hs) (by rw [e1, e2]; exact .ofSites hs')
      subst this
      rw [hx] at hx'; cases hx'
    | partParam hs' hr' hk' hx' =>
      obtain ⟨e1, e2⟩ := wf.single (.ofSites hs) (.ofSites hs') hr hr'
      have := At.same (.ofSites hs) (by rw [e1, e2]; exact .ofSites hs')
      subst this
      rw [hx] at hx'; cases hx'; rfl

theorem Roots.get_mem {m : Roots} {r : Reg} {q : Root} (h : m.get r = some q) : (r, q) ∈ m := by
  unfold Roots.get at h
  simp only [Option.map_eq_some_iff] at h
  obtain ⟨⟨r', q'⟩, hf, rfl⟩ := h
  have := List.find?_some hf
  simp only [beq_iff_eq] at this
  subst this
  exact List.mem_of_find?_eq_some hf

theorem Roots.get_isSome {m : Roots} {r : Reg} {q : Root} (h : (r, q) ∈ m) : ∃ q', m.get r = some q' := by
  unfold Roots.get
  cases hf : m.find? (·.1 == r) with
  | none =>
    have := List.find?_eq_none.mp hf (r, q) h
    simp at this
  | some x => exact ⟨x.2, rfl⟩

/-- All that is recorded is right. -/
def RootsSound (F : Fn) (m : Roots) : Prop := ∀ r q, (r, q) ∈ m → RootOf F r q

theorem baseRoots_sound (F : Fn) : RootsSound F (baseRoots F) := by
  intro r q h
  simp only [baseRoots, List.mem_reverse, List.mem_filterMap] at h
  obtain ⟨⟨s, op⟩, hs, h⟩ := h
  simp only [Option.bind_eq_some_iff, Option.map_eq_some_iff, Prod.mk.injEq] at h
  obtain ⟨r', hr, q', ho, rfl, rfl⟩ := h
  exact .own hs hr ho

theorem rootStep_cases (p : Roots × Bool) (op : Op) : rootStep p op = p ∨
    ∃ r q, op.kind = .subfield ∧ op.result = some r ∧ op.operands.head?.bind p.1.of = some q ∧ p.1.get r ≠ some q ∧
      rootStep p op = ((r, q) :: p.1, true) := by
  unfold rootStep
  split
  · rename_i hk
    split
    · rename_i r q hr hq
      split
      · exact .inl rfl
      · rename_i hn; exact .inr ⟨r, q, hk, hr, hq, hn, rfl⟩
    · exact .inl rfl
  · exact .inl rfl

theorem rootStep_sound {F : Fn} {p : Roots × Bool} {op : Op} (hop : ∃ s, (s, op) ∈ F.sites) (hp : RootsSound F p.1) :
    RootsSound F (rootStep p op).1 := by
  rcases rootStep_cases p op with h | ⟨r, q, hk, hr, hq, _, h⟩
  · rw [h]; exact hp
  · rw [h]
    intro r' q' hm
    simp only [List.mem_cons, Prod.mk.injEq] at hm
    rcases hm with ⟨rfl, rfl⟩ | hm
    · obtain ⟨s, hs⟩ := hop
      simp only [Option.bind_eq_some_iff] at hq
      obtain ⟨o, ho, hq⟩ := hq
      cases o with
      | reg x => exact .part hs hr hk ho (hp _ _ (Roots.get_mem hq))
      | param x => simp only [Roots.of, Option.some.injEq] at hq; subst hq; exact .partParam hs hr hk ho
      | func f => simp [Roots.of] at hq
      | other f => simp [Roots.of] at hq
    · exact hp _ _ hm

theorem rootFold {F : Fn} {ops : List Op} (hops : ∀ op ∈ ops, ∃ s, (s, op) ∈ F.sites) : ∀ {p : Roots × Bool},
    RootsSound F p.1 → RootsSound F (ops.foldl rootStep p).1 ∧ (∀ e ∈ p.1, e ∈ (ops.foldl rootStep p).1) ∧
      ((ops.foldl rootStep p).2 = false → ops.foldl rootStep p = p ∧ ∀ op ∈ ops, rootStep p op = p) := by
  induction ops with
  | nil => intro p hp; exact ⟨hp, fun _ h => h, fun _ => ⟨rfl, by simp⟩⟩
  | cons a ops ih =>
    intro p hp
    simp only [List.foldl_cons]
    obtain ⟨h1, h2, h3⟩ := ih (fun o ho => hops o (List.mem_cons_of_mem _ ho))
      (rootStep_sound (hops a List.mem_cons_self) hp)
    rcases rootStep_cases p a with h | ⟨r, q, _, _, _, _, h⟩
    · rw [h] at h1 h2 h3 ⊢
      refine ⟨h1, h2, fun hf => ?_⟩
      obtain ⟨g1, g2⟩ := h3 hf
      refine ⟨g1, ?_⟩
      intro op hop
      rcases List.mem_cons.mp hop with rfl | hop
      · exact h
      · exact g2 op hop
    · rw [h] at h1 h2 h3 ⊢
      refine ⟨h1, fun e he => h2 e (List.mem_cons_of_mem _ he), fun hf => ?_⟩
      obtain ⟨g1, _⟩ := h3 hf
      rw [g1] at hf; simp at hf

theorem rootsLoop_spec {F : Fn} {ops : List Op} (hops : ∀ op ∈ ops, ∃ s, (s, op) ∈ F.sites) : ∀ {n : Nat} {m m' : Roots},
    RootsSound F m → rootsLoop ops n m = some m' → RootsSound F m' ∧ (∀ e ∈ m, e ∈ m') ∧
      ∀ op ∈ ops, rootStep (m', false) op = (m', false)
  | 0, m, m', _, h => by simp [rootsLoop] at h
  | n + 1, m, m', hm, h => by
    unfold rootsLoop at h
    obtain ⟨h1, h2, h3⟩ := rootFold hops (p := (m, false)) hm
    split at h
    · rename_i m₁ e
      rw [e] at h1 h2
      obtain ⟨g1, g2, g3⟩ := rootsLoop_spec hops h1 h
      exact ⟨g1, fun e he => g2 e (h2 e he), g3⟩
    · rename_i m₁ e
      rw [e] at h1 h2 h3
      cases h
      obtain ⟨g1, g2⟩ := h3 rfl
      cases g1
      exact ⟨h1, h2, g2⟩

/-- The roots that are found are the storage of the registers. -/
theorem placeRoots_exact {F : Fn} (wf : Wf F) {m : Roots} (h : placeRoots F = some m) (r : Reg) (q : Root) :
    m.get r = some q ↔ RootOf F r q := by
  unfold placeRoots at h
  obtain ⟨h1, h2, h3⟩ := rootsLoop_spec (F := F) (fun op hop => by
    obtain ⟨⟨s, o⟩, hs, rfl⟩ := List.mem_map.mp hop
    exact ⟨s, hs⟩) (baseRoots_sound F) h
  constructor
  · intro hg; exact h1 _ _ (Roots.get_mem hg)
  · intro hr
    have key : ∃ q', m.get r = some q' := by
      induction hr with
      | own hs hr ho =>
        rename_i s op r q
        apply Roots.get_isSome (q := q)
        apply h2
        simp only [baseRoots, List.mem_reverse, List.mem_filterMap]
        exact ⟨(s, op), hs, by simp [hr, ho]⟩
      | part hs hr hk hx hrx ih =>
        rename_i s op r x q
        obtain ⟨q', hq'⟩ := ih
        refine ⟨q', ?_⟩
        have := h3 op (List.mem_map.mpr ⟨_, hs, rfl⟩)
        unfold rootStep at this
        simp only [hk, if_true, hr, hx, Option.bind_some, Roots.of, hq'] at this
        split at this
        · assumption
        · simp at this
      | partParam hs hr hk hx =>
        rename_i s op r x
        refine ⟨.param x, ?_⟩
        have := h3 op (List.mem_map.mpr ⟨_, hs, rfl⟩)
        unfold rootStep at this
        simp only [hk, if_true, hr, hx, Option.bind_some, Roots.of] at this
        split at this
        · assumption
        · simp at this
    obtain ⟨q', hq'⟩ := key
    rw [hq', RootOf.functional wf hr (h1 _ _ (Roots.get_mem hq'))]

theorem Roots.of_eq {m : Roots} {ρ : Reg → Option Root} (h : ∀ r, m.get r = ρ r) (o : Operand) : m.of o = place ρ o := by
  cases o <;> simp [Roots.of, place, h]

/-! ## Writes -/

theorem callOperands_spec {info : CallInfo} {l : List Operand} {c : CallOperands} (h : callOperands info l = some c) :
    ∃ e, l.length = e + info.muts.length + 2 ∧ l[0]? = some c.callee ∧ l[l.length - 1]? = some c.result ∧
      c.extras = (l.drop 1).take e ∧ c.arguments = ((l.drop (1 + e)).take info.muts.length).zip info.muts := by
  unfold callOperands at h
  simp only at h
  split at h
  · rename_i hle
    split at h
    · rename_i callee result h1 h2
      cases h
      refine ⟨l.length - (info.muts.length + 2), by omega, ?_, ?_, rfl, rfl⟩
      · rw [← List.head?_eq_getElem?]; exact h1
      · rw [show l.length - 1 = 1 + (l.length - (info.muts.length + 2)) + info.muts.length by omega]; exact h2
    · simp at h
  · simp at h

theorem argument_get {l : List Operand} {muts : List Bool} {e i : Nat} {o : Operand} (hl : l.length = e + muts.length + 2)
    (h1 : 1 + e ≤ i) (h2 : i + 1 < l.length) (ho : l[i]? = some o) :
    ∃ c, muts[i - (1 + e)]? = some c ∧ (((l.drop (1 + e)).take muts.length).zip muts)[i - (1 + e)]? = some (o, c) := by
  have hlt : i - (1 + e) < muts.length := by omega
  refine ⟨muts[i - (1 + e)], List.getElem?_eq_getElem hlt, ?_⟩
  rw [List.getElem?_zip_eq_some]
  refine ⟨?_, List.getElem?_eq_getElem hlt⟩
  rw [List.getElem?_take_of_lt hlt, List.getElem?_drop, show 1 + e + (i - (1 + e)) = i by omega]
  exact ho

/-- What an operation may change is taken to be written. -/
theorem changes_written {op : Op} {i : Nat} {o : Operand} (ho : op.operands[i]? = some o) (hc : changes op i = true) :
    o ∈ written op := by
  unfold changes at hc
  unfold written
  have hmem := List.mem_of_getElem? ho
  cases hk : op.kind with
  | call info =>
    simp only [hk] at hc ⊢
    cases hcall : callOperands info op.operands with
    | none => exact hmem
    | some c =>
      obtain ⟨e, hl, _, hres, _, hargs⟩ := callOperands_spec hcall
      have hi := lt_of_getElem? ho
      have hfirst : op.operands.length - (info.muts.length + 1) = 1 + e := by omega
      rw [hfirst] at hc
      simp only [Bool.or_eq_true, Bool.and_eq_true, decide_eq_true_eq] at hc
      by_cases hlast : i + 1 = op.operands.length
      · have : i = op.operands.length - 1 := by omega
        rw [this, hres] at ho
        cases ho
        simp
      · rcases hc with (hc | hc) | ⟨hfi, hc⟩
        · omega
        · exact absurd hc hlast
        · obtain ⟨cv, hcv, hget⟩ := argument_get hl hfi (by omega) ho
          rcases hc with hc | ⟨_, hc⟩
          · rw [hcv] at hc
            simp only [Option.getD_some] at hc
            subst hc
            simp only [List.mem_append, List.mem_cons, List.mem_map, List.mem_filter]
            left; right
            exact ⟨(o, true), ⟨by rw [hargs]; exact List.mem_of_getElem? hget, rfl⟩, rfl⟩
          · simp only [List.mem_append, List.mem_filterMap]
            right
            refine ⟨i - (1 + e), by simpa using hc, ?_⟩
            rw [hargs, hget]; rfl
  | store => simp only [hk, beq_iff_eq] at hc ⊢; subst hc; simp [ho]
  | memcpy => simp only [hk, beq_iff_eq] at hc ⊢; subst hc; simp [ho]
  | clone => simp only [hk, beq_iff_eq] at hc ⊢; subst hc; simp [ho]
  | move =>
    simp only [hk, Bool.or_eq_true, beq_iff_eq] at hc ⊢
    rcases hc with rfl | rfl <;> simp [ho]
  | clear => simp only [hk, beq_iff_eq] at hc ⊢; subst hc; simp [ho]
  | drop => simp only [hk, beq_iff_eq] at hc ⊢; subst hc; simp [ho]
  | dropClosureEnv => simp only [hk, beq_iff_eq] at hc ⊢; subst hc; simp [ho]
  | buildArray =>
    simp only [hk, decide_eq_true_eq] at hc ⊢
    rw [List.getLast?_eq_getElem?, show op.operands.length - 1 = i by omega, ho]; simp
  | project => exact hmem
  | endProject => exact hmem
  | buildSubscript => exact hmem
  | buildClosure => exact hmem
  | yield => exact hmem
  | _ => simp [hk] at hc

theorem mem_writesIn {m : Roots} {F : Fn} {blocks : List Nat} {b i j : Nat} {op : Op} {o : Operand} {q : Root}
    (hb : b ∈ blocks) (ha : At F b i op) (ho : op.operands[j]? = some o) (hc : changes op j = true) (hq : m.of o = some q) :
    (q, (b, i)) ∈ writesIn m F blocks := by
  obtain ⟨blk, h1, h2⟩ := ha
  simp only [writesIn, List.mem_flatMap]
  refine ⟨b, hb, ?_⟩
  rw [h1]
  simp only [blockWrites, List.mem_flatMap, List.mem_filterMap, Option.map_eq_some_iff, Prod.mk.injEq]
  exact ⟨((b, i), op), mem_opsFrom.mpr ⟨rfl, Nat.zero_le _, by simpa using h2⟩, o, changes_written ho hc, q, hq, rfl, rfl⟩

theorem usedOutside_false {m : Roots} {F : Fn} {root : Root} {blocks : List Nat} (h : usedOutside m F root blocks = false)
    {b i : Nat} {op : Op} {o : Operand} (hb : b ∉ blocks) (ha : At F b i op) (ho : o ∈ op.operands) : m.of o ≠ some root := by
  obtain ⟨blk, h1, h2⟩ := ha
  intro hq
  rw [← Bool.not_eq_true] at h
  apply h
  simp only [usedOutside, List.any_eq_true, List.mem_range, Bool.and_eq_true, Bool.not_eq_true']
  refine ⟨b, lt_of_getElem? h1, by simpa using hb, ?_⟩
  rw [h1]
  simp only [List.any_eq_true]
  exact ⟨op, List.mem_of_getElem? h2, o, ho, by simp [hq]⟩

/-! ## Loops -/

theorem mem_predecessors {F : Fn} {b c : Nat} : b ∈ F.predecessors c ↔ c ∈ F.successors b := by
  simp only [Fn.predecessors, List.mem_filter, List.mem_range, List.contains_iff_mem, and_iff_right_iff_imp]
  intro h
  unfold Fn.successors at h
  cases hb : F[b]? with
  | none => simp [hb] at h
  | some blk => exact lt_of_getElem? hb

theorem growFold {h : Nat} : ∀ (preds : List Nat) (p : List Nat × List Nat),
    (∀ x ∈ p.1, x ∈ (preds.foldl (growStep h) p).1) ∧ (∀ x ∈ p.2, x ∈ (preds.foldl (growStep h) p).2) ∧
    (∀ x ∈ preds, x ∈ (preds.foldl (growStep h) p).1) ∧
    (∀ x ∈ (preds.foldl (growStep h) p).1, x ∈ p.1 ∨ x = h ∨ x ∈ (preds.foldl (growStep h) p).2)
  | [], p => ⟨fun _ h => h, fun _ h => h, by simp, fun _ h => .inl h⟩
  | a :: preds, p => by
    obtain ⟨h1, h2, h3, h4⟩ := growFold (h := h) preds (growStep h p a)
    simp only [List.foldl_cons]
    have hs1 : ∀ x ∈ p.1, x ∈ (growStep h p a).1 := by
      intro x hx; unfold growStep; split
      · exact hx
      · exact List.mem_cons_of_mem _ hx
    have hs2 : ∀ x ∈ p.2, x ∈ (growStep h p a).2 := by
      intro x hx; unfold growStep; split
      · exact hx
      · simp only; split
        · exact List.mem_cons_of_mem _ hx
        · exact hx
    have hs3 : a ∈ (growStep h p a).1 := by
      unfold growStep; split
      · assumption
      · exact List.mem_cons_self
    have hs4 : ∀ x ∈ (growStep h p a).1, x ∈ p.1 ∨ x = h ∨ x ∈ (growStep h p a).2 := by
      intro x hx
      by_cases ha : a ∈ p.1
      · have e : growStep h p a = p := by unfold growStep; rw [if_pos ha]
        rw [e] at hx; exact .inl hx
      · have e : growStep h p a = (a :: p.1, if a ≠ h then a :: p.2 else p.2) := by unfold growStep; rw [if_neg ha]
        rw [e] at hx ⊢
        rcases List.mem_cons.mp hx with rfl | hx
        · by_cases hh : x = h
          · exact .inr (.inl hh)
          · right; right; simp [hh]
        · exact .inl hx
    refine ⟨fun x hx => h1 x (hs1 x hx), fun x hx => h2 x (hs2 x hx), ?_, ?_⟩
    · intro x hx
      rcases List.mem_cons.mp hx with rfl | hx
      · exact h1 _ hs3
      · exact h3 x hx
    · intro x hx
      rcases h4 x hx with h' | h' | h'
      · rcases hs4 x h' with g | g | g
        · exact .inl g
        · exact .inr (.inl g)
        · exact .inr (.inr (h2 x g))
      · exact .inr (.inl h')
      · exact .inr (.inr h')

/-- A set that contains the predecessors of its blocks, apart from the header and what is pending. -/
def LoopInv (F : Fn) (h : Nat) (set pending : List Nat) : Prop :=
  h ∈ set ∧ ∀ b ∈ set, b ≠ h → b ∉ pending → ∀ a, b ∈ F.successors a → a ∈ set

theorem grow_inv {F : Fn} {h : Nat} : ∀ {n : Nat} {set pending set' : List Nat}, LoopInv F h set pending →
    grow F h n (set, pending) = some set' → LoopInv F h set' []
  | n, set, [], set', hi, hg => by
    have : set' = set := by
      unfold grow at hg; exact (Option.some.inj hg).symm
    subst this; exact hi
  | 0, set, b :: pending, set', hi, hg => by simp [grow] at hg
  | n + 1, set, b :: pending, set', hi, hg => by
    rw [grow] at hg
    obtain ⟨h1, h2, h3, h4⟩ := growFold (h := h) (F.predecessors b) (set, pending)
    generalize (F.predecessors b).foldl (growStep h) (set, pending) = p at *
    obtain ⟨s₁, p₁⟩ := p
    refine grow_inv (n := n) (set := s₁) (pending := p₁) ⟨h1 h hi.1, ?_⟩ hg
    intro c hc hne hnp a ha
    rcases h4 c hc with g | g | g
    · by_cases e : c = b
      · subst e; exact h3 a (mem_predecessors.mpr ha)
      · refine h1 a (hi.2 c g hne ?_ a ha)
        intro hm
        rcases List.mem_cons.mp hm with rfl | hm
        · exact e rfl
        · exact hnp (h2 c hm)
    · exact absurd g hne
    · exact absurd g hnp

theorem addTail_inv {F : Fn} {h : Nat} {set set' : List Nat} {t : Nat} (hi : set = [] ∨ LoopInv F h set [])
    (hg : addTail F h set t = some set') : LoopInv F h set' [] := by
  unfold addTail at hg
  simp only at hg
  have hinv : LoopInv F h (if h ∈ set then set else h :: set) [] := by
    rcases hi with rfl | hi
    · refine ⟨by simp, ?_⟩
      intro b hb hne
      simp at hb; exact absurd hb hne
    · rw [if_pos hi.1]; exact hi
  generalize (if h ∈ set then set else h :: set) = set₁ at *
  split at hg
  · cases hg; exact hinv
  · refine grow_inv (set := t :: set₁) (pending := [t]) ⟨List.mem_cons_of_mem _ hinv.1, ?_⟩ hg
    intro b hb hne hnp a ha
    rcases List.mem_cons.mp hb with rfl | hb
    · simp at hnp
    · exact List.mem_cons_of_mem _ (hinv.2 b hb hne (by simp) a ha)

theorem foldlM_inv {F : Fn} {h : Nat} : ∀ {ts : List Nat} {set set' : List Nat}, (set = [] ∨ LoopInv F h set []) →
    ts.foldlM (addTail F h) set = some set' → set' = [] ∨ LoopInv F h set' []
  | [], set, set', hi, hg => by
    simp only [List.foldlM_nil, Option.pure_def, Option.some.injEq] at hg; subst hg; exact hi
  | t :: ts, set, set', hi, hg => by
    simp only [List.foldlM_cons, Option.bind_eq_bind, Option.bind_eq_some_iff] at hg
    obtain ⟨s₁, h1, h2⟩ := hg
    exact foldlM_inv (.inr (addTail_inv hi h1)) h2

theorem naturalLoop_spec {F : Fn} {dom : Nat → Nat → Bool} {reachable : Nat → Bool} {h : Nat} {nl : NaturalLoop}
    (hn : naturalLoop F dom reachable h = some (some nl)) :
    h ∈ nl.blocks ∧ nl.preheader ∉ nl.blocks ∧ (∃ ops, F[nl.preheader]? = some ⟨ops, .goto h⟩) ∧
    ∀ b c, c ∈ F.successors b → c ∈ nl.blocks → b ∈ nl.blocks ∨ (b = nl.preheader ∧ c = h) := by
  unfold naturalLoop at hn
  split at hn
  · simp at hn
  · simp at hn
  · rename_i blocks hne hblocks
    have hinv : LoopInv F h blocks [] := by
      rcases foldlM_inv (.inl rfl) hblocks with h' | h'
      · exact absurd h' (by intro e; exact hne (by simpa using e))
      · exact h'
    split at hn
    · rename_i pre hpre
      split at hn
      · rename_i ops t hF
        split at hn
        · rename_i ht
          cases hn
          subst ht
          have hmem : ∀ x, (x ∈ F.predecessors t ∧ x ∉ blocks) ↔ x = pre := by
            intro x
            have : x ∈ (F.predecessors t).filter (fun p => !blocks.contains p) ↔ x ∈ [pre] := by rw [hpre]
            simpa using this
          refine ⟨hinv.1, ((hmem pre).mpr rfl).2, ⟨ops, hF⟩, ?_⟩
          intro b c hc hcl
          by_cases hb : b ∈ blocks
          · exact .inl hb
          · by_cases e : c = t
            · subst e
              exact .inr ⟨(hmem b).mp ⟨mem_predecessors.mpr hc, hb⟩, rfl⟩
            · exact absurd (hinv.2 c hcl e (by simp) b hc) hb
        · simp at hn
      · simp at hn
    · simp at hn

end Ferlium.Licm
