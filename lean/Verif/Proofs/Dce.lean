import Verif.Model.Dce

/-!
# Helper lemmas on the removal of unused computations: counting and the worklist
-/

namespace Ferlium.Dce

/-! ## Sums -/

theorem sumIdx_congr {α : Type} {f g : Nat → α → Nat} (l : List α) (i : Nat)
    (h : ∀ j a, l[j]? = some a → f (i + j) a = g (i + j) a) : sumIdx f i l = sumIdx g i l := by
  induction l generalizing i with
  | nil => rfl
  | cons a l ih =>
    have h0 := h 0 a rfl
    have := ih (i + 1) (fun j b hb => by
      have := h (j + 1) b (by simpa using hb)
      simpa [Nat.add_assoc, Nat.add_comm 1 j] using this)
    simp only [sumIdx, this]
    simp at h0
    omega

theorem sumIdx_change {α : Type} {f g : Nat → α → Nat} (l : List α) (i k : Nat) (a : α)
    (hk : l[k]? = some a) (h : ∀ j b, j ≠ k → l[j]? = some b → f (i + j) b = g (i + j) b) :
    sumIdx f i l + g (i + k) a = sumIdx g i l + f (i + k) a := by
  induction l generalizing i k with
  | nil => simp at hk
  | cons x l ih =>
    cases k with
    | zero =>
      simp at hk
      subst hk
      have := sumIdx_congr (f := f) (g := g) l (i + 1) (fun j b hb => by
        have := h (j + 1) b (by omega) (by simpa using hb)
        simpa [Nat.add_assoc, Nat.add_comm 1 j] using this)
      simp only [sumIdx, this, Nat.add_zero]
      omega
    | succ k =>
      have h0 := h 0 x (by omega) rfl
      have := ih (i + 1) k (by simpa using hk) (fun j b hj hb => by
        have := h (j + 1) b (by omega) (by simpa using hb)
        simpa [Nat.add_assoc, Nat.add_comm 1 j] using this)
      simp only [sumIdx]
      simp at h0
      have e : i + 1 + k = i + (k + 1) := by omega
      rw [e] at this
      omega

theorem sumIdx_ge {α : Type} {f : Nat → α → Nat} (l : List α) (i k : Nat) (a : α)
    (hk : l[k]? = some a) : f (i + k) a ≤ sumIdx f i l := by
  induction l generalizing i k with
  | nil => simp at hk
  | cons x l ih =>
    cases k with
    | zero => simp at hk; subst hk; simp [sumIdx]
    | succ k =>
      have := ih (i + 1) k (by simpa using hk)
      simp only [sumIdx]
      have e : i + 1 + k = i + (k + 1) := by omega
      rw [e] at this
      omega

theorem op?_some {F : Fn} {s : Site} {op : Op} (h : F.op? s = some op) :
    ∃ blk, F.blocks[s.1]? = some blk ∧ blk.ops[s.2]? = some op := by
  simp only [Fn.op?, Option.bind_eq_some_iff] at h
  exact h

theorem op?_of {F : Fn} {b i : Nat} {blk : Block} {op : Op} (h : F.blocks[b]? = some blk)
    (h' : blk.ops[i]? = some op) : F.op? (b, i) = some op := by
  simp [Fn.op?, h, h']

theorem total_change {f g : Site → Op → Nat} {t : Term → Nat} {F : Fn} {s : Site} {op : Op}
    (hs : F.op? s = some op) (h : ∀ s' op', s' ≠ s → F.op? s' = some op' → f s' op' = g s' op') :
    total f t F + g s op = total g t F + f s op := by
  obtain ⟨sb, si⟩ := s
  obtain ⟨blk, hb, ho⟩ := op?_some hs
  simp only at hb ho
  have inner := sumIdx_change (f := fun i op => f (sb, i) op) (g := fun i op => g (sb, i) op)
    blk.ops 0 si op ho (fun j b hj hb' => by
      simp only [Nat.zero_add]
      exact h (sb, j) b (fun e => hj (by simpa using e)) (op?_of hb hb'))
  have outer := sumIdx_change
    (f := fun b blk => sumIdx (fun i op => f (b, i) op) 0 blk.ops + t blk.term)
    (g := fun b blk => sumIdx (fun i op => g (b, i) op) 0 blk.ops + t blk.term)
    F.blocks 0 sb blk hb (fun j b hj hb' => by
      simp only [Nat.zero_add]
      congr 1
      apply sumIdx_congr
      intro k o ho'
      simp only [Nat.zero_add]
      exact h (j, k) o (fun e => hj (by simp at e; exact e.1)) (op?_of hb' ho'))
  simp only [Nat.zero_add] at inner outer
  simp only [total]
  omega

theorem total_congr {f g : Site → Op → Nat} {t : Term → Nat} {F : Fn}
    (h : ∀ s op, F.op? s = some op → f s op = g s op) : total f t F = total g t F := by
  apply sumIdx_congr
  intro j b hb
  simp only [Nat.zero_add]
  congr 1
  apply sumIdx_congr
  intro k o ho
  simp only [Nat.zero_add]
  exact h (j, k) o (op?_of hb ho)

theorem total_ge {f : Site → Op → Nat} {t : Term → Nat} {F : Fn} {s : Site} {op : Op}
    (hs : F.op? s = some op) : f s op ≤ total f t F := by
  obtain ⟨sb, si⟩ := s
  obtain ⟨blk, hb, ho⟩ := op?_some hs
  simp only at hb ho
  have h1 := sumIdx_ge (f := fun i op => f (sb, i) op) blk.ops 0 si op ho
  have h2 := sumIdx_ge (f := fun b blk => sumIdx (fun i op => f (b, i) op) 0 blk.ops + t blk.term)
    F.blocks 0 sb blk hb
  simp only [Nat.zero_add] at h1 h2
  simp only [total]
  omega

theorem total_ge_term {f : Site → Op → Nat} {t : Term → Nat} {F : Fn} {b : Nat} {blk : Block}
    (hb : F.blocks[b]? = some blk) : t blk.term ≤ total f t F := by
  have h2 := sumIdx_ge (f := fun b blk => sumIdx (fun i op => f (b, i) op) 0 blk.ops + t blk.term)
    F.blocks 0 b blk hb
  simp only [Nat.zero_add] at h2
  simp only [total]
  omega

/-! ## Uses that are left -/

/-- The number of uses of `r` outside of the operations in `dead`. -/
def kept (F : Fn) (dead : Site → Bool) (r : Reg) : Nat :=
  total (fun s op => if dead s then 0 else occ r op.operands) (fun t => occ r t.operands) F

/-- The number of operands outside of the operations in `dead`. -/
def keptSize (F : Fn) (dead : Site → Bool) : Nat :=
  total (fun s op => if dead s then 0 else op.operands.length) (fun _ => 0) F

theorem kept_none (F : Fn) (r : Reg) : kept F (fun _ => false) r = uses F r := by
  simp [kept, uses]

theorem kept_add {F : Fn} {dead dead' : Site → Bool} {r : Reg} {s : Site} {op : Op}
    (hs : F.op? s = some op) (hd : dead s = false) (hd' : dead' s = true)
    (h : ∀ s', s' ≠ s → dead' s' = dead s') :
    kept F dead' r + occ r op.operands = kept F dead r := by
  have := total_change (f := fun s op => if dead s then 0 else occ r op.operands)
    (g := fun s op => if dead' s then 0 else occ r op.operands) (t := fun t => occ r t.operands) hs
    (fun s' op' hne _ => by simp only [h s' hne])
  simp only [hd, hd', if_true, if_false, Bool.false_eq_true, Nat.add_zero] at this
  simp only [kept]
  omega

theorem keptSize_add {F : Fn} {dead dead' : Site → Bool} {s : Site} {op : Op}
    (hs : F.op? s = some op) (hd : dead s = false) (hd' : dead' s = true)
    (h : ∀ s', s' ≠ s → dead' s' = dead s') :
    keptSize F dead' + op.operands.length = keptSize F dead := by
  have := total_change (f := fun s op => if dead s then 0 else op.operands.length)
    (g := fun s op => if dead' s then 0 else op.operands.length) (t := fun _ => 0) hs
    (fun s' op' hne _ => by simp only [h s' hne])
  simp only [hd, hd', if_true, if_false, Bool.false_eq_true, Nat.add_zero] at this
  simp only [keptSize]
  omega

theorem kept_ge {F : Fn} {dead : Site → Bool} {r : Reg} {s : Site} {op : Op}
    (hs : F.op? s = some op) (hd : dead s = false) : occ r op.operands ≤ kept F dead r := by
  have := total_ge (f := fun s op => if dead s then 0 else occ r op.operands)
    (t := fun t => occ r t.operands) hs
  simpa [kept, hd] using this

theorem kept_ge_term {F : Fn} {dead : Site → Bool} {r : Reg} {b : Nat} {blk : Block}
    (hb : F.blocks[b]? = some blk) : occ r blk.term.operands ≤ kept F dead r :=
  total_ge_term (t := fun t => occ r t.operands) hb

theorem kept_congr {F : Fn} {d d' : Site → Bool} {r : Reg}
    (h : ∀ s, F.op? s ≠ none → d s = d' s) : kept F d r = kept F d' r := by
  apply total_congr
  intro s op hs
  simp only [h s (by simp [hs])]

theorem sumIdx_zero {α : Type} {f : Nat → α → Nat} (l : List α) (i : Nat)
    (h : ∀ (j : Nat) (a : α), l[j]? = some a → f (i + j) a = 0) : sumIdx f i l = 0 := by
  rw [sumIdx_congr (g := fun _ _ => 0) l i h]
  clear h
  induction l generalizing i with
  | nil => rfl
  | cons a l ih => simp only [sumIdx, ih]

theorem kept_zero {F : Fn} {d : Site → Bool} {r : Reg}
    (h : ∀ s op, F.op? s = some op → d s = false → occ r op.operands = 0)
    (ht : ∀ (b : Nat) (blk : Block), F.blocks[b]? = some blk → occ r blk.term.operands = 0) :
    kept F d r = 0 := by
  apply sumIdx_zero
  intro j blk hb
  simp only [Nat.zero_add] at hb ⊢
  rw [ht j blk hb, sumIdx_zero]
  intro k op ho
  simp only [Nat.zero_add] at ho ⊢
  cases hd : d (j, k) with
  | true => simp
  | false => simpa using h (j, k) op (op?_of hb ho) hd

theorem occ_pos {r : Reg} {l : List Operand} : 0 < occ r l ↔ .reg r ∈ l := by
  induction l with
  | nil => simp [occ]
  | cons o l ih =>
    cases o <;> simp [occ, ih]
    rename_i x
    by_cases h : x = r
    · simp [h]; omega
    · have : ¬ r = x := fun e => h e.symm
      simp [h, this, ih]

/-- If exactly `n` uses of `r` are left and one operation that is left has `n` of them, nobody else
uses `r`. -/
theorem kept_only {F : Fn} {dead : Site → Bool} {r : Reg} {s : Site} {op : Op}
    (hs : F.op? s = some op) (hd : dead s = false) (hle : kept F dead r ≤ occ r op.operands) :
    (∀ s' op', F.op? s' = some op' → s' ≠ s → dead s' = false → occ r op'.operands = 0) ∧
    (∀ (b : Nat) (blk : Block), F.blocks[b]? = some blk → occ r blk.term.operands = 0) := by
  let dead' : Site → Bool := fun s' => if s' = s then true else dead s'
  have h := kept_add (dead' := dead') (r := r) hs hd (by simp [dead'])
    (fun s' h => by simp [dead', h])
  have h0 : kept F dead' r = 0 := by omega
  constructor
  · intro s' op' hs' hne hd'
    have := kept_ge (dead := dead') (r := r) hs' (by simp [dead', hne, hd'])
    omega
  · intro b blk hb
    have := kept_ge_term (dead := dead') (r := r) hb
    omega

/-! ## Retiring operands -/

theorem retire_spec (cand : Reg → Option Site) (deadAt : Nat) (l : List Operand)
    (u : Reg → Nat) (p : List Reg) (h : ∀ x, occ x l ≤ u x) :
    ∃ u' p', retire cand deadAt l u p = some (u', p') ∧ (∀ x, u' x + occ x l = u x) ∧
      p'.length ≤ p.length + l.length ∧ (∀ x ∈ p, x ∈ p') ∧
      (∀ x ∈ p', x ∈ p ∨ ((cand x).isSome ∧ u' x ≤ deadAt)) ∧
      (∀ x, (cand x).isSome → u' x = deadAt → u x = deadAt ∨ x ∈ p') := by
  induction l generalizing u p with
  | nil => exact ⟨u, p, rfl, by simp [occ], by simp, by simp, fun x hx => .inl hx,
      fun x _ hx => .inl hx⟩
  | cons o l ih =>
    cases o with
    | reg y =>
      have hy := h y
      simp only [occ, if_true] at hy
      obtain ⟨n, hn⟩ : ∃ n, u y = n + 1 := ⟨u y - 1, by omega⟩
      simp only [retire, hn]
      have hu : ∀ x, occ x l ≤ set u y n x := by
        intro x
        have := h x
        simp only [set]
        by_cases e : x = y
        · subst e; simp only [if_true]; omega
        · simp only [e, if_false]; simp only [occ] at this; omega
      obtain ⟨u', p', h1, h2, h3, h4, h5, h6⟩ :=
        ih (set u y n) (if n = deadAt ∧ (cand y).isSome then y :: p else p) hu
      refine ⟨u', p', h1, ?_, ?_, ?_, ?_, ?_⟩
      · intro x
        have := h2 x
        simp only [set] at this
        by_cases e : x = y
        · subst e; simp only [occ, if_true] at this ⊢; omega
        · have e' : ¬ y = x := fun e'' => e e''.symm
          simp only [occ, e', if_false, e] at this ⊢; omega
      · split at h3 <;> simp at h3 ⊢ <;> omega
      · intro x hx
        apply h4
        split
        · exact List.mem_cons_of_mem _ hx
        · exact hx
      · intro x hx
        rcases h5 x hx with h | h
        · split at h
          · rename_i hc
            rcases List.mem_cons.mp h with rfl | h
            · refine .inr ⟨hc.2, ?_⟩
              have := h2 x
              simp only [set, if_true] at this
              omega
            · exact .inl h
          · exact .inl h
        · exact .inr h
      · intro x hc hx
        rcases h6 x hc hx with h | h
        · simp only [set] at h
          by_cases e : x = y
          · subst e
            simp only [if_true] at h
            right
            apply h4
            rw [if_pos ⟨h, hc⟩]
            exact List.mem_cons_self
          · simp only [e, if_false] at h
            exact .inl h
        · exact .inr h
    | const _ =>
      obtain ⟨u', p', h1, h2, h3, h⟩ := ih u p (fun x => by simpa [occ] using h x)
      exact ⟨u', p', by simpa [retire] using h1, fun x => by simpa [occ] using h2 x,
        by simp; omega, h⟩
    | func _ =>
      obtain ⟨u', p', h1, h2, h3, h⟩ := ih u p (fun x => by simpa [occ] using h x)
      exact ⟨u', p', by simpa [retire] using h1, fun x => by simpa [occ] using h2 x,
        by simp; omega, h⟩
    | other _ =>
      obtain ⟨u', p', h1, h2, h3, h⟩ := ih u p (fun x => by simpa [occ] using h x)
      exact ⟨u', p', by simpa [retire] using h1, fun x => by simpa [occ] using h2 x,
        by simp; omega, h⟩

/-! ## The least set of dead results -/

/-- The results that ought to go: a candidate whose own operation uses it `deadAt` times, and whose
other uses are all in operations of candidates that ought to go. -/
inductive Dead (F : Fn) (cand : Reg → Option Site) (deadAt : Nat) : Reg → Prop where
  | intro (r : Reg) (s : Site) (op : Op) (w : Site → Reg) (hc : cand r = some s)
      (ho : F.op? s = some op) (own : occ r op.operands = deadAt)
      (hterm : ∀ (b : Nat) (blk : Block), F.blocks[b]? = some blk → .reg r ∉ blk.term.operands)
      (huse : ∀ s' op', F.op? s' = some op' → s' ≠ s → .reg r ∈ op'.operands →
        cand (w s') = some s')
      (hdead : ∀ s' op', F.op? s' = some op' → s' ≠ s → .reg r ∈ op'.operands →
        Dead F cand deadAt (w s')) : Dead F cand deadAt r

/-- Candidates name operations of the function, different ones for different registers, and the
operation uses its result `deadAt` times or more. -/
structure CandOk (F : Fn) (cand : Reg → Option Site) (deadAt : Nat) : Prop where
  op : ∀ r s, cand r = some s → ∃ op, F.op? s = some op ∧ deadAt ≤ occ r op.operands
  inj : ∀ r r' s, cand r = some s → cand r' = some s → r = r'

/-- What holds between the turns of the loop. -/
structure Inv (F : Fn) (cand : Reg → Option Site) (deadAt : Nat) (w : Work) : Prop where
  count : ∀ x, w.uses x = kept F (· ∈ w.removed) x
  pend : ∀ x ∈ w.pending, (cand x).isSome ∧ w.uses x ≤ deadAt
  found : ∀ x s, cand x = some s → w.uses x = deadAt → x ∈ w.pending ∨ s ∈ w.removed
  passed : ∀ x ∈ w.seen, (∃ s, cand x = some s ∧ s ∈ w.removed) ∨ w.uses x < deadAt
  site : ∀ s ∈ w.removed, ∃ x, cand x = some s ∧ x ∈ w.seen ∧ w.uses x = 0 ∧
    Dead F cand deadAt x

theorem kept_anti {F : Fn} {d : List Site} {s : Site} {op : Op} (hs : F.op? s = some op)
    (hd : s ∉ d) (x : Reg) :
    kept F (· ∈ s :: d) x + occ x op.operands = kept F (· ∈ d) x :=
  kept_add hs (by simpa using hd) (by simp) (fun s' h => by simp [h])

theorem keptSize_anti {F : Fn} {d : List Site} {s : Site} {op : Op} (hs : F.op? s = some op)
    (hd : s ∉ d) :
    keptSize F (· ∈ s :: d) + op.operands.length = keptSize F (· ∈ d) :=
  keptSize_add hs (by simpa using hd) (by simp) (fun s' h => by simp [h])

theorem turn_spec {F : Fn} {cand : Reg → Option Site} {deadAt : Nat} (hc : CandOk F cand deadAt)
    {r : Reg} {p : List Reg} {w : Work} (h : Inv F cand deadAt { w with pending := r :: p }) :
    ∃ w', turn F cand deadAt r { w with pending := p } = some w' ∧ Inv F cand deadAt w' ∧
      w'.pending.length + keptSize F (· ∈ w'.removed)
        ≤ p.length + keptSize F (· ∈ w.removed) := by
  obtain ⟨count, pend, found, passed, site⟩ := h
  simp only at count pend found passed site
  simp only [turn]
  split
  · rename_i hseen
    refine ⟨_, rfl, ⟨count, fun x hx => pend x (List.mem_cons_of_mem _ hx), ?_, passed, site⟩,
      Nat.le_refl _⟩
    intro x s hx hu
    rcases found x s hx hu with hm | hm
    · rcases List.mem_cons.mp hm with rfl | hm
      · rcases passed x hseen with ⟨s', h1, h2⟩ | h1
        · rw [hx] at h1; cases h1; exact .inr h2
        · have hu' : w.uses x = deadAt := hu
          omega
      · exact .inl hm
    · exact .inr hm
  · rename_i hseen
    split
    · rename_i hu
      have hle := (pend r List.mem_cons_self).2
      refine ⟨_, rfl, ⟨count, fun x hx => pend x (List.mem_cons_of_mem _ hx), ?_, ?_, ?_⟩,
        Nat.le_refl _⟩
      · intro x s hx hux
        rcases found x s hx hux with hm | hm
        · rcases List.mem_cons.mp hm with rfl | hm
          · exact absurd hux hu
          · exact .inl hm
        · exact .inr hm
      · intro x hx
        rcases List.mem_cons.mp hx with rfl | hx
        · exact .inr (by simp only; omega)
        · exact passed x hx
      · intro s hs
        obtain ⟨x, h1, h2, h3⟩ := site s hs
        exact ⟨x, h1, List.mem_cons_of_mem _ h2, h3⟩
    · rename_i hu
      have hu : w.uses r = deadAt := Decidable.not_not.mp hu
      obtain ⟨s, hs⟩ := Option.isSome_iff_exists.mp (pend r List.mem_cons_self).1
      obtain ⟨op, hop, hocc⟩ := hc.op r s hs
      have hnew : s ∉ w.removed := by
        intro hm
        obtain ⟨x, h1, h2, _⟩ := site s hm
        exact hseen (hc.inj _ _ _ h1 hs ▸ h2)
      have hle : ∀ x, occ x op.operands ≤ w.uses x := by
        intro x
        rw [count x]
        exact kept_ge hop (by simpa using hnew)
      obtain ⟨u', p', h1, h2, h3, h4, h5, h6⟩ := retire_spec cand deadAt op.operands w.uses p hle
      simp only [hs, hop, h1]
      have hr0 : u' r = 0 := by have := h2 r; omega
      have hown : occ r op.operands = deadAt := by have := h2 r; omega
      refine ⟨_, rfl, ⟨?_, ?_, ?_, ?_, ?_⟩, ?_⟩
      · intro x
        have := kept_anti hop hnew x
        have h2' := h2 x
        rw [count x] at h2'
        simp only
        omega
      · intro x hx
        rcases h5 x hx with hx | hx
        · refine ⟨(pend x (List.mem_cons_of_mem _ hx)).1, ?_⟩
          have := (pend x (List.mem_cons_of_mem _ hx)).2
          have := h2 x
          simp only
          omega
        · exact hx
      · intro x sx hx hux
        rcases h6 x (by simp [hx]) hux with hx' | hx'
        · rcases found x sx hx hx' with hm | hm
          · rcases List.mem_cons.mp hm with rfl | hm
            · rw [hs] at hx; cases hx; exact .inr List.mem_cons_self
            · exact .inl (h4 x hm)
          · exact .inr (List.mem_cons_of_mem _ hm)
        · exact .inl hx'
      · intro x hx
        rcases List.mem_cons.mp hx with rfl | hx
        · exact .inl ⟨s, hs, List.mem_cons_self⟩
        · rcases passed x hx with ⟨s', h7, h8⟩ | h7
          · exact .inl ⟨s', h7, List.mem_cons_of_mem _ h8⟩
          · have := h2 x
            exact .inr (by simp only; omega)
      · intro sx hsx
        rcases List.mem_cons.mp hsx with rfl | hsx
        · refine ⟨r, hs, List.mem_cons_self, hr0, ?_⟩
          have honly := kept_only (dead := (· ∈ w.removed)) (r := r) hop (by simpa using hnew)
            (by rw [← count r]; omega)
          have huse : ∀ s' op', F.op? s' = some op' → s' ≠ sx → .reg r ∈ op'.operands →
              s' ∈ w.removed := by
            intro s' op' hs' hne hm
            have hp := occ_pos.mpr hm
            cases hd : decide (s' ∈ w.removed) with
            | true => simpa using hd
            | false => have := honly.1 s' op' hs' hne (by simpa using hd); omega
          have hfun : ∀ s', ∃ x, s' ∈ w.removed → cand x = some s' ∧ Dead F cand deadAt x := by
            intro s'
            by_cases hm : s' ∈ w.removed
            · obtain ⟨x, hx1, _, _, hx2⟩ := site s' hm
              exact ⟨x, fun _ => ⟨hx1, hx2⟩⟩
            · exact ⟨0, fun h => absurd h hm⟩
          obtain ⟨f, hf⟩ := Classical.axiomOfChoice hfun
          refine .intro r sx op f hs hop hown ?_ ?_ ?_
          · intro b blk hb hm
            have := honly.2 b blk hb
            have := occ_pos.mpr hm
            omega
          · exact fun s' op' h7 h8 h9 => (hf s' (huse s' op' h7 h8 h9)).1
          · exact fun s' op' h7 h8 h9 => (hf s' (huse s' op' h7 h8 h9)).2
        · obtain ⟨x, h7, h8, h9, h10⟩ := site sx hsx
          refine ⟨x, h7, List.mem_cons_of_mem _ h8, ?_, h10⟩
          have := h2 x
          simp only
          omega
      · have := keptSize_anti hop hnew
        simp only
        omega

theorem loop_spec {F : Fn} {cand : Reg → Option Site} {deadAt : Nat} (hc : CandOk F cand deadAt)
    (fuel : Nat) (w : Work) (h : Inv F cand deadAt w)
    (hf : w.pending.length + keptSize F (· ∈ w.removed) < fuel) :
    ∃ w', loop F cand deadAt fuel w = some w' ∧ Inv F cand deadAt w' ∧ w'.pending = [] := by
  induction fuel generalizing w with
  | zero => omega
  | succ n ih =>
    obtain ⟨u, p, seen, removed⟩ := w
    cases p with
    | nil => exact ⟨_, rfl, h, rfl⟩
    | cons r p =>
      obtain ⟨w', h1, h2, h3⟩ := turn_spec (w := ⟨u, r :: p, seen, removed⟩) hc h
      simp only [loop, h1]
      simp only [List.length_cons] at hf
      exact ih w' h2 (by simp only at h3; omega)

/-- The candidates' operations that ought to go are removed, and nothing else is. -/
theorem deadResults_spec {F : Fn} {cand : Reg → Option Site} {deadAt : Nat} {order : List Reg}
    (hc : CandOk F cand deadAt) (ho : ∀ r, r ∈ order ↔ (cand r).isSome) :
    ∃ removed, deadResults F cand deadAt order = some removed ∧
      (∀ s, s ∈ removed ↔ ∃ r, cand r = some s ∧ Dead F cand deadAt r) ∧
      (∀ s ∈ removed, ∃ r, cand r = some s ∧ kept F (· ∈ removed) r = 0) ∧
      (∀ r s, cand r = some s → s ∉ removed → kept F (· ∈ removed) r ≠ deadAt) := by
  have hinit : Inv F cand deadAt
      ⟨uses F, order.filter (fun r => uses F r = deadAt), [], []⟩ := by
    refine ⟨?_, ?_, ?_, ?_, ?_⟩
    · intro x
      have : kept F (fun s => decide (s ∈ ([] : List Site))) x = kept F (fun _ => false) x := by
        simp
      simp only
      rw [this, kept_none]
    · intro x hx
      simp only [List.mem_filter, decide_eq_true_eq] at hx
      exact ⟨(ho x).mp hx.1, Nat.le_of_eq hx.2⟩
    · intro x s hx hu
      exact .inl (by simp only [List.mem_filter, decide_eq_true_eq]
                     exact ⟨(ho x).mpr (by simp [hx]), hu⟩)
    · simp
    · simp
  obtain ⟨w, h1, h2, h3⟩ := loop_spec hc (order.length + size F + 1) _ hinit (by
    have := List.length_filter_le (fun r => decide (uses F r = deadAt)) order
    have e : keptSize F (fun s => decide (s ∈ ([] : List Site))) = size F := by
      simp [keptSize, size]
    simp only
    omega)
  have key : ∀ r s, cand r = some s → Dead F cand deadAt r → s ∈ w.removed := by
    intro r s hr hd
    induction hd generalizing s with
    | intro r s' op f hc' hop hown hterm huse hdead ih =>
      rw [hc'] at hr; cases hr
      by_cases hm : s' ∈ w.removed
      · exact hm
      · exfalso
        have hk : kept F (· ∈ w.removed) r = deadAt := by
          have h4 := kept_anti hop hm r
          have h5 : kept F (· ∈ s' :: w.removed) r = 0 := by
            apply kept_zero
            · intro s2 op2 hs2 hn
              · simp only [List.mem_cons, decide_eq_false_iff_not, not_or] at hn
                by_cases hp : .reg r ∈ op2.operands
                · exact absurd (ih s2 op2 hs2 hn.1 hp s2 (huse s2 op2 hs2 hn.1 hp)) hn.2
                · have := mt occ_pos.mp hp
                  omega
            · intro b blk hb
              have := mt occ_pos.mp (hterm b blk hb)
              omega
          omega
        rcases h2.found r s' hc' (by rw [h2.count r]; exact hk) with h | h
        · rw [h3] at h; cases h
        · exact hm h
  refine ⟨w.removed, by simp only [deadResults, h1, Option.map_some], ?_, ?_, ?_⟩
  · intro s
    constructor
    · intro hs
      obtain ⟨x, hx1, _, _, hx2⟩ := h2.site s hs
      exact ⟨x, hx1, hx2⟩
    · rintro ⟨r, hr, hd⟩
      exact key r s hr hd
  · intro s hs
    obtain ⟨x, hx1, _, hx2, _⟩ := h2.site s hs
    exact ⟨x, hx1, by rw [← h2.count x]; exact hx2⟩
  · intro r s hr hs hk
    rcases h2.found r s hr (by rw [h2.count r]; exact hk) with h | h
    · rw [h3] at h; cases h
    · exact hs h

end Ferlium.Dce
