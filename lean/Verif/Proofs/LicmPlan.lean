import Verif.Proofs.LicmFind

/-!
# Moving calls out of loops: the plan of a move that is found
-/

namespace Ferlium.Licm

variable {F : Fn}

theorem definition_spec {r : Reg} {s : Site} {op : Op} (h : definition F r = some (s, op)) :
    (s, op) ∈ F.sites ∧ op.result = some r := by
  unfold definition at h
  have h1 := List.mem_of_find?_eq_some h
  have h2 := List.find?_some h
  exact ⟨List.mem_reverse.mp h1, by simpa using h2⟩

/-! ## The place of insertion -/

theorem foldl_max (l : List Site) : ∀ e : Nat, e ≤ l.foldl (fun e s => max e (s.2 + 1)) e ∧
    ∀ s ∈ l, s.2 + 1 ≤ l.foldl (fun e s => max e (s.2 + 1)) e := by
  induction l with
  | nil => intro e; simp
  | cons a l ih =>
    intro e
    obtain ⟨h1, h2⟩ := ih (max e (a.2 + 1))
    simp only [List.foldl_cons]
    refine ⟨by omega, ?_⟩
    intro s hs
    rcases List.mem_cons.mp hs with rfl | hs
    · omega
    · exact h2 s hs

/-- What is known of an input, when the insertion is not before `e`. -/
def InputOk (F : Fn) (dom : Nat → Nat → Bool) (m : Roots) (pre : Nat) (w : List (Root × Site)) (e : Nat) (o : Operand) : Prop :=
  (∀ r, o = .reg r → ∃ d i op, definition F r = some ((d, i), op) ∧ ((d = pre ∧ i < e) ∨ (d ≠ pre ∧ dom d pre = true))) ∧
  ∀ q, m.of o = some q → ∀ s, (q, s) ∈ w → s.2 < e

theorem InputOk.mono {dom : Nat → Nat → Bool} {m : Roots} {pre : Nat} {w : List (Root × Site)} {e e' : Nat} {o : Operand}
    (h : InputOk F dom m pre w e o) (he : e ≤ e') : InputOk F dom m pre w e' o := by
  refine ⟨fun r hr => ?_, fun q hq s hs => Nat.lt_of_lt_of_le (h.2 q hq s hs) he⟩
  obtain ⟨d, i, op, h1, h2⟩ := h.1 r hr
  exact ⟨d, i, op, h1, h2.imp (fun h => ⟨h.1, by omega⟩) id⟩

theorem inputEarliest_spec {dom : Nat → Nat → Bool} {m : Roots} {pre : Nat} {w : List (Root × Site)} {e e' : Nat}
    {o : Operand} (h : inputEarliest F dom m pre w e o = some e') : e ≤ e' ∧ InputOk F dom m pre w e' o := by
  unfold inputEarliest at h
  simp only [Option.map_eq_some_iff] at h
  obtain ⟨e₁, h1, h2⟩ := h
  have hle : e₁ ≤ e' ∧ ∀ q, m.of o = some q → ∀ s, (q, s) ∈ w → s.2 < e' := by
    cases hm : m.of o with
    | none => simp only [hm] at h2; subst h2; exact ⟨Nat.le_refl _, by simp⟩
    | some root =>
      simp only [hm] at h2
      obtain ⟨g1, g2⟩ := foldl_max (sitesOf w root) e₁
      rw [h2] at g1 g2
      refine ⟨g1, ?_⟩
      intro q hq s hs
      cases hq
      have := g2 s (by
        simp only [sitesOf, List.mem_map, List.mem_filter]
        exact ⟨(root, s), ⟨hs, by simp⟩, rfl⟩)
      omega
  have hdef : e ≤ e₁ ∧ ∀ r, o = .reg r → ∃ d i op, definition F r = some ((d, i), op) ∧
      ((d = pre ∧ i < e₁) ∨ (d ≠ pre ∧ dom d pre = true)) := by
    cases o with
    | reg r =>
      simp only at h1
      cases hd : definition F r with
      | none => simp [hd] at h1
      | some x =>
        obtain ⟨⟨d, i⟩, op⟩ := x
        simp only [hd] at h1
        split at h1
        · rename_i hp
          cases h1
          refine ⟨by omega, fun r' e => ?_⟩
          cases e
          exact ⟨d, i, op, hd, .inl ⟨hp, by omega⟩⟩
        · rename_i hp
          split at h1
          · rename_i hdom
            cases h1
            refine ⟨Nat.le_refl _, fun r' e => ?_⟩
            cases e
            exact ⟨d, i, op, hd, .inr ⟨hp, hdom⟩⟩
          · simp at h1
    | param _ => simp only [Option.some.injEq] at h1; subst h1; exact ⟨Nat.le_refl _, by simp⟩
    | func _ => simp only [Option.some.injEq] at h1; subst h1; exact ⟨Nat.le_refl _, by simp⟩
    | other _ => simp only [Option.some.injEq] at h1; subst h1; exact ⟨Nat.le_refl _, by simp⟩
  refine ⟨by omega, ⟨fun r hr => ?_, hle.2⟩⟩
  obtain ⟨d, i, op, g1, g2⟩ := hdef.2 r hr
  exact ⟨d, i, op, g1, g2.imp (fun h => ⟨h.1, by omega⟩) id⟩

theorem inputsEarliest_spec {dom : Nat → Nat → Bool} {m : Roots} {pre : Nat} {w : List (Root × Site)} :
    ∀ {inputs : List Operand} {e e' : Nat}, inputs.foldlM (inputEarliest F dom m pre w) e = some e' →
      e ≤ e' ∧ ∀ o ∈ inputs, InputOk F dom m pre w e' o
  | [], e, e', h => by
    simp only [List.foldlM_nil, Option.pure_def, Option.some.injEq] at h; subst h; simp
  | a :: l, e, e', h => by
    simp only [List.foldlM_cons, Option.bind_eq_bind, Option.bind_eq_some_iff] at h
    obtain ⟨e₁, h1, h2⟩ := h
    obtain ⟨g1, g2⟩ := inputEarliest_spec h1
    obtain ⟨k1, k2⟩ := inputsEarliest_spec h2
    refine ⟨by omega, ?_⟩
    intro o ho
    rcases List.mem_cons.mp ho with rfl | ho
    · exact g2.mono k1
    · exact k2 o ho

/-- What is known of the restored points of the loop, when the insertion is not after `k`. -/
def RestoreOk (F : Fn) (nl : NaturalLoop) (k : Nat) (op : Op) : Prop :=
  op.kind = .stackRestore → ∃ m d i o, op.operands.head? = some (.reg m) ∧ definition F m = some ((d, i), o) ∧
    (d ∈ nl.blocks ∨ (d = nl.preheader ∧ k ≤ i))

theorem restoreLatest_spec {nl : NaturalLoop} {k k' : Nat} {op : Op} (h : restoreLatest F nl k op = some k') :
    k' ≤ k ∧ RestoreOk F nl k' op ∧ (k' = k ∨ (op.kind = .stackRestore ∧ ∃ m o, op.operands.head? = some (.reg m) ∧
      definition F m = some ((nl.preheader, k'), o))) := by
  unfold restoreLatest at h
  split at h
  · rename_i hk
    split at h
    · rename_i marker hm
      cases hd : definition F marker with
      | none => simp [hd] at h
      | some x =>
        obtain ⟨⟨d, i⟩, o⟩ := x
        simp only [hd] at h
        split at h
        · rename_i hc
          cases h
          exact ⟨Nat.le_refl _, fun _ => ⟨marker, d, i, o, hm, hd, .inl (by simpa using hc)⟩, .inl rfl⟩
        · split at h
          · rename_i hp
            cases h
            refine ⟨by omega, fun _ => ⟨marker, d, i, o, hm, hd, .inr ⟨hp, by omega⟩⟩, ?_⟩
            by_cases hle : k ≤ i
            · left; omega
            · right
              refine ⟨hk, marker, o, hm, ?_⟩
              rw [show min k i = i by omega, ← hp]; exact hd
          · simp at h
    · simp at h
  · rename_i hk
    cases h
    exact ⟨Nat.le_refl _, fun h => absurd h hk, .inl rfl⟩

theorem RestoreOk.mono {nl : NaturalLoop} {k k' : Nat} {op : Op} (h : RestoreOk F nl k op) (hk : k' ≤ k) :
    RestoreOk F nl k' op := by
  intro hr
  obtain ⟨m, d, i, o, h1, h2, h3⟩ := h hr
  exact ⟨m, d, i, o, h1, h2, h3.imp id fun h => ⟨h.1, by omega⟩⟩

theorem restoresLatest_spec {nl : NaturalLoop} : ∀ {ops : List Op} {k k' : Nat},
    ops.foldlM (restoreLatest F nl) k = some k' → k' ≤ k ∧ (∀ op ∈ ops, RestoreOk F nl k' op) ∧
      (k' = k ∨ ∃ op ∈ ops, op.kind = .stackRestore ∧ ∃ m o, op.operands.head? = some (.reg m) ∧
        definition F m = some ((nl.preheader, k'), o))
  | [], k, k', h => by
    simp only [List.foldlM_nil, Option.pure_def, Option.some.injEq] at h; subst h; simp
  | a :: l, k, k', h => by
    simp only [List.foldlM_cons, Option.bind_eq_bind, Option.bind_eq_some_iff] at h
    obtain ⟨k₁, h1, h2⟩ := h
    obtain ⟨g1, g2, g3⟩ := restoreLatest_spec h1
    obtain ⟨j1, j2, j3⟩ := restoresLatest_spec h2
    refine ⟨by omega, ?_, ?_⟩
    · intro o ho
      rcases List.mem_cons.mp ho with rfl | ho
      · exact g2.mono j1
      · exact j2 o ho
    · rcases j3 with rfl | ⟨op, ho, hr⟩
      · rcases g3 with g3 | g3
        · exact .inl g3
        · exact .inr ⟨a, List.mem_cons_self, g3⟩
      · exact .inr ⟨op, List.mem_cons_of_mem _ ho, hr⟩

theorem insertionPoint_spec {dom : Nat → Nat → Bool} {m : Roots} {nl : NaturalLoop} {inputs : List Operand}
    {w : List (Root × Site)} {k : Nat} {pre : Block} (hpre : F[nl.preheader]? = some pre)
    (h : insertionPoint F dom m nl inputs w = some k) :
    (∀ o ∈ inputs, InputOk F dom m nl.preheader w k o) ∧ k ≤ pre.ops.length ∧
    (∀ b ∈ nl.blocks, ∀ blk, F[b]? = some blk → ∀ op ∈ blk.ops, RestoreOk F nl k op) ∧
    (k = pre.ops.length ∨ ∃ b ∈ nl.blocks, ∃ blk, F[b]? = some blk ∧ ∃ op ∈ blk.ops, op.kind = .stackRestore ∧ ∃ m o,
      op.operands.head? = some (.reg m) ∧ definition F m = some ((nl.preheader, k), o)) := by
  unfold insertionPoint at h
  rw [hpre] at h
  cases he : inputs.foldlM (inputEarliest F dom m nl.preheader w) 0 with
  | none => simp [he] at h
  | some e =>
    simp only [he] at h
    split at h
    · simp at h
    · rename_i latest hl
      split at h
      · rename_i hle
        cases h
        obtain ⟨_, g2⟩ := inputsEarliest_spec he
        obtain ⟨j1, j2, j3⟩ := restoresLatest_spec hl
        refine ⟨fun o ho => (g2 o ho).mono hle, j1, ?_, ?_⟩
        · intro b hb blk hblk op hop
          apply j2
          simp only [List.mem_flatMap]
          exact ⟨b, hb, by simpa [hblk] using hop⟩
        · rcases j3 with j3 | ⟨op, ho, hr⟩
          · exact .inl j3
          · simp only [List.mem_flatMap] at ho
            obtain ⟨b, hb, ho⟩ := ho
            cases hblk : F[b]? with
            | none => simp [hblk] at ho
            | some blk => exact .inr ⟨b, hb, blk, hblk, op, by simpa [hblk] using ho, hr⟩
      · simp at h

/-! ## Definitions before the loop -/

section

variable {L : Nat → Prop} {P header : Nat}

theorem avoids_pre (wf : Wf F) (Lentry : ¬ L 0) (enter : ∀ b c, c ∈ F.successors b → L c → L b ∨ (b = P ∧ c = header))
    (hP : P < F.length) : Avoids F L P := by
  have key : ∀ b, Avoids F (fun _ => False) b → Avoids F L b ∨ Avoids F L P := by
    intro b h
    induction h with
    | entry => exact .inl (.entry Lentry)
    | @step b c hb hc _ ih =>
      rcases ih with h | h
      · by_cases hL : L c
        · rcases enter b c hc hL with h' | ⟨rfl, _⟩
          · exact absurd h' h.good
          · exact .inr h
        · exact .inl (.step h hc hL)
      · exact .inr h
  exact (key _ (wf.reachable _ hP)).elim id id

/-- On the first way to `P`. -/
theorem first_visit {n : Nat} (h : Avoids F L n) : Avoids F (fun b => L b ∨ b = P) n ∨ P = 0 ∨
    ∃ b, Avoids F (fun b => L b ∨ b = P) b ∧ P ∈ F.successors b := by
  induction h with
  | entry h0 =>
    by_cases e : 0 = P
    · exact .inr (.inl e.symm)
    · exact .inl (.entry (by rintro (h | h); exact h0 h; exact e h))
  | @step b c hb hc hn ih =>
    rcases ih with h | h | h
    · by_cases e : c = P
      · subst e; exact .inr (.inr ⟨b, h, hc⟩)
      · exact .inl (.step h hc (by rintro (h | h); exact hn h; exact e h))
    · exact .inr (.inl h)
    · exact .inr (.inr h)

theorem dom_pre (hP : Avoids F L P) {d : Nat} (hd : d ≠ P) (hdom : ¬ Avoids F (· = d) P) :
    Avoids F (fun b => L b ∨ b = P) d := by
  rcases first_visit (P := P) hP with h | h | ⟨b, h, hc⟩
  · exact absurd (.inr rfl) h.good
  · subst h; exact absurd (.entry (fun e => hd e.symm)) hdom
  · by_cases hb : Avoids F (· = d) b
    · exact absurd (.step hb hc (fun e => hd e.symm)) hdom
    · exact h.on hb

/-- A site before the place of insertion, on all paths. -/
def Before (F : Fn) (L : Nat → Prop) (P k : Nat) (d i : Nat) : Prop := (d = P ∧ i < k) ∨ Avoids F (fun b => L b ∨ b = P) d

theorem Before.not_region {k d i : Nat} (hLP : ¬ L P) (h : Before F L P k d i) : ¬ (L d ∨ (d = P ∧ k ≤ i)) := by
  rcases h with ⟨rfl, h⟩ | h
  · rintro (h' | ⟨_, h'⟩)
    · exact hLP h'
    · omega
  · rintro (h' | ⟨h', _⟩)
    · exact h.good (.inl h')
    · exact h.good (.inr h')

theorem Before.step (hP : Avoids F L P) {k b i d j : Nat} (h : Before F L P k b i)
    (hd : (d = b ∧ j < i) ∨ (d ≠ b ∧ ¬ Avoids F (· = d) b)) : Before F L P k d j := by
  rcases hd with ⟨rfl, hj⟩ | ⟨hne, hdom⟩
  · rcases h with ⟨rfl, h⟩ | h
    · exact .inl ⟨rfl, by omega⟩
    · exact .inr h
  · rcases h with ⟨rfl, h⟩ | h
    · exact .inr (dom_pre hP hne hdom)
    · exact .inr (h.on hdom)

theorem root_before (wf : Wf F) (hP : Avoids F L P) {k : Nat} {x : Reg} {q : Root} (h : RootOf F x q) :
    (∀ d i o, At F d i o → o.result = some x → Before F L P k d i) →
      ∀ d i o, At F d i o → ownRoot o = some q → Before F L P k d i := by
  induction h with
  | own hs hr ho =>
    intro hx d i o ha hq
    obtain ⟨r, h1, h2⟩ := ownRoot_same ho hq
    rw [hr] at h1; cases h1
    exact hx d i o ha h2
  | part hs hr hk hx hrx ih =>
    rename_i s op r x q
    intro hdef d i o ha hq
    have hmem : Operand.reg x ∈ op.operands := by
      cases ho : op.operands with
      | nil => simp [ho] at hx
      | cons a rest => simp only [ho, List.head?_cons, Option.some.injEq] at hx; simp [hx]
    obtain ⟨d', j', o', ha', hr', hd'⟩ := wf.defined (.ofSites hs) hmem
    have hb := (hdef _ _ _ (.ofSites hs) hr).step hP hd'
    refine ih ?_ d i o ha hq
    intro d₂ i₂ o₂ ha₂ hr₂
    obtain ⟨rfl, rfl⟩ := wf.single ha' ha₂ hr' hr₂
    exact hb
  | partParam =>
    intro _ d i o _ hq
    obtain ⟨r, _, h | h⟩ := ownRoot_result hq <;> simp at h

end

/-! ## The plan -/

theorem eligibleCall_spec {trivial willReturn : Nat → Bool} {op : Op} {c : CallOperands}
    (h : eligibleCall trivial willReturn op = some c) : ∃ info f, op.kind = .call info ∧ info.effectFree = true ∧
      info.valueResult = true ∧ info.owned = [] ∧ callOperands info op.operands = some c ∧
      (∀ a ∈ c.arguments, a.2 = false) ∧ c.callee = .func f ∧ willReturn f = true ∧ trivial info.ret = true := by
  unfold eligibleCall at h
  cases hk : op.kind with
  | call info =>
    simp only [hk] at h
    split at h
    · simp at h
    · rename_i hcond
      simp only [Bool.or_eq_true, Bool.not_eq_true', not_or, Bool.not_eq_false] at hcond
      obtain ⟨⟨⟨h1, h2⟩, h3⟩, h4⟩ := hcond
      cases hc : callOperands info op.operands with
      | none => simp [hc] at h
      | some c' =>
        simp only [hc] at h
        split at h
        · simp at h
        · rename_i ha
          cases hf : c'.callee with
          | func f =>
            simp only [hf] at h
            split at h
            · rename_i hw
              cases h
              refine ⟨info, f, rfl, h1, h2, by simpa using h4, hc, ?_, hf, hw, h3⟩
              intro a hm
              simp only [List.any_eq_true, not_exists, not_and, Bool.not_eq_true] at ha
              exact ha a hm
            · simp at h
          | reg _ => simp [hf] at h
          | param _ => simp [hf] at h
          | other _ => simp [hf] at h
  | _ => simp [hk] at h

/-- An eligible call changes its result only. -/
theorem eligible_changes {info : CallInfo} {op : Op} {c : CallOperands} (hk : op.kind = .call info)
    (hc : callOperands info op.operands = some c) (howned : info.owned = []) (ha : ∀ a ∈ c.arguments, a.2 = false)
    {i : Nat} (hi : i < op.operands.length) : changes op i = true ↔ i + 1 = op.operands.length := by
  obtain ⟨e, hl, _, _, _, hargs⟩ := callOperands_spec hc
  unfold changes
  simp only [hk, howned, List.contains_nil, Bool.and_false, Bool.or_false, Bool.or_eq_true, decide_eq_true_eq,
    Bool.and_eq_true]
  constructor
  · rintro ((h | h) | ⟨h1, h2⟩)
    · omega
    · exact h
    · by_contra hne
      obtain ⟨o, ho⟩ : ∃ o, op.operands[i]? = some o := ⟨_, List.getElem?_eq_getElem hi⟩
      have hfirst : op.operands.length - (info.muts.length + 1) = 1 + e := by omega
      rw [hfirst] at h1 h2
      obtain ⟨cv, hcv, hget⟩ := argument_get hl h1 (by omega) ho
      rw [hcv] at h2
      simp only [Option.getD_some] at h2
      subst h2
      have := ha (o, true) (by rw [hargs]; exact List.mem_of_getElem? hget)
      simp at this
  · intro h; exact .inl (.inr h)

/-- The operands of a call are the function, the inputs and the result. -/
theorem call_inputs {info : CallInfo} {l : List Operand} {c : CallOperands} (hc : callOperands info l = some c) {i : Nat}
    {o : Operand} (ho : l[i]? = some o) (hi : i + 1 < l.length) : o = c.callee ∨ o ∈ c.extras ++ c.arguments.map (·.1) := by
  obtain ⟨e, hl, h0, _, hex, hargs⟩ := callOperands_spec hc
  by_cases hz : i = 0
  · subst hz; rw [h0] at ho; exact .inl (Option.some.inj ho).symm
  · right
    by_cases hle : i < 1 + e
    · apply List.mem_append_left
      rw [hex]
      apply List.mem_of_getElem? (i := i - 1)
      rw [List.getElem?_take_of_lt (by omega), List.getElem?_drop, show 1 + (i - 1) = i by omega]
      exact ho
    · apply List.mem_append_right
      obtain ⟨cv, _, hget⟩ := argument_get hl (by omega) hi ho
      rw [hargs]
      exact List.mem_map.mpr ⟨_, List.mem_of_getElem? hget, rfl⟩

theorem candidate_spec {dom : Nat → Nat → Bool} {trivial willReturn : Nat → Bool} {m : Roots} {nl : NaturalLoop}
    {site : Site} {op : Op} {h : Hoist} (hc : candidate F dom trivial willReturn m nl site op = some h) :
    ∃ call info r defSite aop ty, eligibleCall trivial willReturn op = some call ∧ op.kind = .call info ∧
      call.result = .reg r ∧ definition F r = some (defSite, aop) ∧ aop.kind = .alloca ty ∧ aop.operands = [] ∧
      sitesOf (writesIn m F nl.blocks) (.alloca r) = [site] ∧ usedOutside m F (.alloca r) nl.blocks = false ∧
      (∀ o ∈ call.extras ++ call.arguments.map (·.1), ∃ q, m.of o = some q ∧ q ≠ .alloca r ∧
        ∀ s, (q, s) ∉ writesIn m F nl.blocks) ∧
      insertionPoint F dom m nl (if defSite.1 ∈ nl.blocks then call.extras ++ call.arguments.map (·.1)
        else call.extras ++ call.arguments.map (·.1) ++ [.reg r]) (writesIn m F [nl.preheader]) = some h.insertion ∧
      h.call = site ∧ h.preheader = nl.preheader ∧ h.alloca = if defSite.1 ∈ nl.blocks then some defSite else none := by
  unfold candidate at hc
  cases he : eligibleCall trivial willReturn op with
  | none => simp [he] at hc
  | some call =>
    simp only [he] at hc
    split at hc
    · rename_i result info hres hkind
      split at hc
      · rename_i defSite ty data operands res hdef
        split at hc
        · simp at hc
        · rename_i hcond
          split at hc
          · simp at hc
          · rename_i hw
            split at hc
            · simp at hc
            · rename_i hin
              split at hc
              · simp at hc
              · split at hc
                · simp at hc
                · rename_i k hk
                  cases hc
                  simp only [Bool.or_eq_true, Bool.not_eq_true', decide_eq_true_eq, not_or, Bool.not_eq_false, ne_eq,
                    not_not, Bool.not_eq_true] at hcond hw
                  refine ⟨call, info, result, defSite, _, ty, rfl, hkind, hres, hdef, rfl, by simpa using hcond.1.1, hw.1, hw.2,
                    ?_, ?_, rfl, rfl, ?_⟩
                  · intro o ho
                    simp only [List.any_eq_true, not_exists, not_and, Bool.not_eq_true] at hin
                    have := hin o ho
                    cases hq : m.of o with
                    | none => simp [hq] at this
                    | some q =>
                      simp only [hq, Bool.or_eq_false_iff, beq_eq_false_iff_ne] at this
                      refine ⟨q, rfl, this.2, fun s hs => ?_⟩
                      have := List.any_eq_false.mp this.1 _ hs
                      simp at this
                  · rw [← hres]
                    simpa using hk
                  · simp
      · simp at hc
    · simp at hc

/-- What is found may be moved. -/
theorem candidate_plan (wf : Wf F) {ρ : Reg → Option Root} (hρ : ∀ r q, ρ r = some q ↔ RootOf F r q)
    {dom : Nat → Nat → Bool} (hdom : ∀ d n, dom d n = true → ¬ Avoids F (· = d) n) {reachable : Nat → Bool}
    {trivial willReturn : Nat → Bool} {m : Roots} (hm : placeRoots F = some m) {header : Nat} {nl : NaturalLoop}
    (hnl : naturalLoop F dom reachable header = some (some nl)) (horder : ∀ b ∈ nl.blocks, nl.preheader < b)
    {b i : Nat} (hb : b ∈ nl.blocks) {blk : Block} (hblk : F[b]? = some blk) {op : Op} (hop : blk.ops[i]? = some op)
    {h : Hoist} (hc : candidate F dom trivial willReturn m nl (b, i) op = some h) :
    ∃ p : Plan F ρ, p.L = (· ∈ nl.blocks) ∧ p.P = h.preheader ∧ p.k = h.insertion ∧ h.call = (p.cb, p.ci) ∧
      (p.moved → h.alloca = some (p.ab, p.ai)) ∧ (¬ p.moved → h.alloca = none) ∧
      eligibleCall trivial willReturn p.op ≠ none := by
  obtain ⟨call, info, r, ⟨db, di⟩, aop, ty, he, hkind, hres, hdef, hak, haops, hsite, hout, hinputs, hins, h1, h2, h3⟩ :=
    candidate_spec hc
  obtain ⟨hh, hpre, ⟨pops, hpblk⟩, henter⟩ := naturalLoop_spec hnl
  obtain ⟨info', f, hkind', _, _, howned, hcall, hargs, hcallee, _, _⟩ := eligibleCall_spec he
  rw [hkind] at hkind'; cases hkind'
  have hof : ∀ o, m.of o = place ρ o := fun o => Roots.of_eq (fun x => by
    have := placeRoots_exact wf hm x
    cases hx : ρ x with
    | none =>
      cases hg : m.get x with
      | none => rfl
      | some q => rw [(hρ x q).mpr ((this q).mp hg)] at hx; simp at hx
    | some q => exact (this q).mpr ((hρ x q).mp hx)) o
  obtain ⟨hdsite, hdres⟩ := definition_spec hdef
  obtain ⟨dblk, hdblk, hdop⟩ := mem_sites.mp hdsite
  have hdat : At F db di aop := .ofOps hdblk hdop
  have hown : ownRoot aop = some (.alloca r) := by simp [ownRoot, hdres, hak]
  have hroot : ρ r = some (.alloca r) := (hρ _ _).mpr (.own hdsite hdres hown)
  obtain ⟨hok, hkle, hrest, hkor⟩ := insertionPoint_spec hpblk hins
  have hat : At F b i op := .ofOps hblk hop
  obtain ⟨e, hlen, hget0, hlast, _, _⟩ := callOperands_spec hcall
  have hL0 : ¬ (0 ∈ nl.blocks) := fun h => by have := horder 0 h; omega
  have hav : Avoids F (· ∈ nl.blocks) nl.preheader := avoids_pre wf hL0 henter (lt_of_getElem? hpblk)
  have hbefore : ∀ x, InputOk F dom m nl.preheader (writesIn m F [nl.preheader]) h.insertion (.reg x) →
      ∀ d j o, At F d j o → o.result = some x → Before F (· ∈ nl.blocks) nl.preheader h.insertion d j := by
    intro x hx d j o ha hr
    obtain ⟨d', i', o', hd', hor⟩ := hx.1 x rfl
    obtain ⟨hs', hr'⟩ := definition_spec hd'
    obtain ⟨rfl, rfl⟩ := wf.single (.ofSites hs') ha hr' hr
    rcases hor with hor | ⟨hne, hd⟩
    · exact .inl hor
    · exact .inr (dom_pre hav hne (hdom _ _ hd))
  have hcalleePlace : place ρ call.callee = none := by rw [hcallee]; rfl
  have hLP : ¬ (nl.preheader ∈ nl.blocks) := hpre
  have hmem : ∀ j o, op.operands[j]? = some o → j + 1 < op.operands.length → o = call.callee ∨
      (o ∈ call.extras ++ call.arguments.map (·.1) ∧
        InputOk F dom m nl.preheader (writesIn m F [nl.preheader]) h.insertion o) := by
    intro j o ho hj
    rcases call_inputs hcall ho hj with h' | h'
    · exact .inl h'
    · refine .inr ⟨h', hok o ?_⟩
      split
      · exact h'
      · exact List.mem_append_left _ h'
  let p : Plan F ρ :=
    { L := (· ∈ nl.blocks), P := nl.preheader, k := h.insertion, header := header, r := r, cb := b, ci := i, op := op,
      moved := db ∈ nl.blocks, ab := db, ai := di, aop := aop, Lentry := hL0, LP := hpre, pre := ⟨pops, .goto header⟩,
      hpre := hpblk, hgoto := rfl, hk := hkle, hheader := hh, enter := henter, cblk := blk, hcblk := hblk, Lcall := hb,
      hop := hop, info := info, kind := hkind, opnds := by omega,
      hlast := by rw [hlast, hres], hroot := hroot,
      hchanges := fun j hj => eligible_changes hkind hcall howned hargs hj
      writes := by
        intro b' i' o j q hb' ha ho hch hp
        have := mem_writesIn (m := m) hb' ha ho hch ((hof q).trans hp)
        have : (b', i') ∈ sitesOf (writesIn m F nl.blocks) (.alloca r) := by
          simp only [sitesOf, List.mem_map, List.mem_filter]
          exact ⟨_, ⟨this, by simp⟩, rfl⟩
        rw [hsite] at this
        simpa using this
      outside := by
        intro b' i' o q hb' ha hq hp
        exact usedOutside_false hout hb' ha hq ((hof q).trans hp)
      inputs := by
        intro j o ho hj
        rcases hmem j o ho hj with rfl | ⟨hin, hiok⟩
        · refine ⟨by rw [hcalleePlace]; simp, by rw [hcalleePlace]; simp, by rw [hcalleePlace]; simp, ?_⟩
          intro x hx; rw [hcallee] at hx; simp at hx
        · obtain ⟨q, hq, hne, hnw⟩ := hinputs o hin
          have hq' : place ρ o = some q := (hof o).symm.trans hq
          refine ⟨by rw [hq']; simpa using hne, ?_, ?_, ?_⟩
          · intro q₁ hq₁ b' j' o' l u hr ha hu hch hp
            rw [hq'] at hq₁; cases hq₁
            rcases hr with hr | ⟨rfl, hr⟩
            · exact hnw _ (mem_writesIn hr ha hu hch ((hof u).trans hp))
            · have := hiok.2 q hq _ (mem_writesIn (blocks := [nl.preheader]) (by simp) ha hu hch ((hof u).trans hp))
              simp only at this
              omega
          · intro q₁ hq₁ b' j' o' hr ha hown'
            rw [hq'] at hq₁; cases hq₁
            have hbf : Before F (· ∈ nl.blocks) nl.preheader h.insertion b' j' := by
              cases o with
              | reg x =>
                exact root_before wf hav ((hρ x q).mp hq') (hbefore x hiok) b' j' o' ha hown'
              | param x =>
                simp only [place, Option.some.injEq] at hq'
                subst hq'
                obtain ⟨_, _, h' | h'⟩ := ownRoot_result hown' <;> simp at h'
              | func _ => simp [place] at hq'
              | other _ => simp [place] at hq'
            exact hbf.not_region hLP hr
          · rintro x rfl b' j' o' hr ha hres'
            exact (hbefore x hiok b' j' o' ha hres').not_region hLP hr
      alloca := by
        intro b' j' o ha ho
        obtain ⟨r', hr1, hr2⟩ := ownRoot_same hown ho
        obtain ⟨rfl, rfl⟩ := wf.single hdat ha hr1 hr2
        obtain rfl := hdat.same ha
        exact ⟨ty, hak⟩
      result := by
        intro b' j' o ha ho
        obtain ⟨rfl, rfl⟩ := wf.single hdat ha hdres ho
        obtain rfl := hdat.same ha
        exact hown
      hmoved := fun hmv => ⟨hmv, ⟨dblk, hdblk, hdop⟩, hown, haops⟩
      only := by
        intro b' j' o hr ha ho
        obtain ⟨r', hr1, hr2⟩ := ownRoot_same hown ho
        obtain ⟨rfl, rfl⟩ := wf.single hdat ha hr1 hr2
        refine ⟨?_, rfl, rfl⟩
        by_contra hnm
        have := hok (.reg r) (by rw [if_neg hnm]; simp)
        exact (hbefore r this db di aop hdat hdres).not_region hLP hr
      movedOnly := by
        intro _ b' j' o ha ho
        obtain ⟨r', hr1, hr2⟩ := ownRoot_same hown ho
        obtain ⟨rfl, rfl⟩ := wf.single hdat ha hr1 hr2
        exact ⟨rfl, rfl⟩
      restores := by
        intro b' j' o mk hr ha hk hmk d i' o' hd hres'
        rcases hr with hr | ⟨rfl, hr⟩
        · obtain ⟨blk', hblk', hin⟩ := ha.cases
          rcases hin with hin | ⟨_, hin⟩
          · obtain ⟨m', d', i₂, o₂, g1, g2, g3⟩ := hrest b' hr blk' hblk' o (List.mem_of_getElem? hin) hk
            rw [hmk] at g1; cases g1
            obtain ⟨gs, gr⟩ := definition_spec g2
            obtain ⟨rfl, rfl⟩ := wf.single (.ofSites gs) hd gr hres'
            exact g3
          · exact absurd hk (wf.terms hblk' hin).2.2.1
        · obtain ⟨blk', hblk', hin⟩ := ha.cases
          rw [hpblk] at hblk'; cases hblk'
          rcases hin with hin | ⟨_, hin⟩
          · rcases hkor with hkor | ⟨b₂, hb₂, blk₂, hblk₂, op₂, hop₂, hk₂, m₂, o₂, hm₂, hdef₂⟩
            · have := lt_of_getElem? hin
              simp only at this hkor
              omega
            · obtain ⟨gs, gr⟩ := definition_spec hdef₂
              by_contra hn
              obtain ⟨j₂, hj₂⟩ := List.getElem?_of_mem hop₂
              have hne : b₂ ≠ nl.preheader := fun e => hLP (e ▸ hb₂)
              have hgs : At F nl.preheader h.insertion o₂ := .ofSites gs
              have hnd : ¬ (d = nl.preheader ∧ h.insertion ≤ i') := fun h' => hn (.inr h')
              have hji : h.insertion < j' := by
                rcases Nat.lt_or_ge h.insertion j' with h' | h'
                · exact h'
                · exfalso
                  have e : h.insertion = j' := by omega
                  rw [e] at hgs
                  have := hgs.same ha
                  subst this
                  -- the saved point is not the operation that restores
                  exact absurd (wf.restores ha hk) (by rw [gr]; simp)
              exact wf.nested hgs gr hji ha hk hmk (by
                intro l o₃ ha₃ hr₃
                obtain ⟨rfl, rfl⟩ := wf.single hd ha₃ hres' hr₃
                by_contra hlt
                exact hnd ⟨rfl, by omega⟩) hne (.ofOps hblk₂ hj₂) hk₂ hm₂
          · exact absurd hk (wf.terms hpblk hin).2.2.1 }
  refine ⟨p, rfl, h2.symm, rfl, h1, ?_, ?_, ?_⟩
  · intro hmv
    rw [h3]
    exact if_pos hmv
  · intro hmv
    rw [h3]
    exact if_neg hmv
  · show eligibleCall trivial willReturn op ≠ none
    rw [he]; simp

end Ferlium.Licm
