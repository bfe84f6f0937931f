import Verif.Proofs.RelationsMain

/-
Tools for concrete bodies: the run of the analysis on a body whose edges go forward, and a machine
which executes a body.
-/

namespace Ferlium.Relations

/-- One round of the analysis on a block not visited before. -/
def visit (rank : Symbol → Nat) (f : Body) (r : Run) (b : Nat) : Run :=
  match joinEntry rank f r.exits b with
  | some e => ⟨fun x => if x = b then some e else r.entries x,
      fun x => if x = b then some (exitState rank f b e) else r.exits x,
      fun x => (r.queued x ∧ x ≠ b) ∨ ∃ blk, f.blocks[b]? = some blk ∧ x ∈ blk.term.succs⟩
  | none => r

/-- The run which visits the blocks in order. -/
def runTo (rank : Symbol → Nat) (f : Body) : Nat → Run
  | 0 => Run.start
  | k + 1 => visit rank f (runTo rank f k) k

/-- Edges go forward, and every block but the first has one. -/
def forwardB (f : Body) : Bool :=
  0 < f.blocks.length &&
  (List.range f.blocks.length).all fun b =>
    (match f.blocks[b]? with
      | some blk => blk.term.succs.all fun t => b < t && t < f.blocks.length
      | none => false) &&
    (b == 0 || (List.range b).any fun a =>
      match f.blocks[a]? with
      | some blk => blk.term.succs.contains b
      | none => false)

section
variable {rank : Symbol → Nat} {f : Body}

theorem forward_run (hf : forwardB f = true) : ∀ k, k ≤ f.blocks.length →
    Runs rank f (runTo rank f k) ∧
    (∀ x, (runTo rank f k).queued x → k ≤ x ∧ x < f.blocks.length) ∧
    (∀ x, k ≤ x → (runTo rank f k).entries x = none ∧ (runTo rank f k).exits x = none) ∧
    (∀ x, x < k → (runTo rank f k).exits x ≠ none) ∧
    (∀ x, k ≤ x → (x = 0 ∨ ∃ a blk, a < k ∧ f.blocks[a]? = some blk ∧ x ∈ blk.term.succs) →
      (runTo rank f k).queued x) := by
  simp only [forwardB, Bool.and_eq_true, decide_eq_true_eq, List.all_eq_true, List.mem_range] at hf
  obtain ⟨hpos, hf⟩ := hf
  intro k
  induction k with
  | zero =>
    intro _
    refine ⟨.start, ?_, ?_, ?_, ?_⟩
    · intro x hx; simp only [runTo, Run.start] at hx; omega
    · intro x _; simp [runTo, Run.start]
    · intro x hx; omega
    · intro x _ h
      rcases h with h | ⟨a, _, ha, _⟩
      · exact h
      · omega
  | succ k ih =>
    intro hk
    obtain ⟨h1, h2, h3, h4, h5⟩ := ih (by omega)
    obtain ⟨hs, hp⟩ := hf k (by omega)
    have hblk : f.blocks[k]? = some f.blocks[k] := List.getElem?_eq_getElem (by omega)
    rw [hblk] at hs
    simp only [List.all_eq_true, Bool.and_eq_true, decide_eq_true_eq] at hs
    have hpred : k = 0 ∨ ∃ a blk, a < k ∧ f.blocks[a]? = some blk ∧ k ∈ blk.term.succs := by
      simp only [Bool.or_eq_true, beq_iff_eq, List.any_eq_true, List.mem_range] at hp
      rcases hp with h | ⟨a, ha, h⟩
      · exact .inl h
      · right
        split at h
        · rename_i blk hb
          exact ⟨a, blk, ha, hb, by simpa using h⟩
        · simp at h
    have hq := h5 k (Nat.le_refl k) hpred
    have hj : ∃ e, joinEntry rank f (runTo rank f k).exits k = some e := by
      rcases hpred with h | ⟨a, blk, ha, hb, hmem⟩
      · exact ⟨.empty, by simp [joinEntry, h]⟩
      · by_cases hk0 : k = 0
        · exact ⟨.empty, by simp [joinEntry, hk0]⟩
        · cases hx : (runTo rank f k).exits a with
          | none => exact absurd hx (h4 a ha)
          | some st =>
            obtain ⟨e, he, _⟩ := foldl_join (rank := rank) (f := f) (b := k) hx hb (f.preds k) none
              (mem_preds hb hmem)
            exact ⟨e, by rw [joinEntry_eq _ hk0]; exact he⟩
    obtain ⟨e, he⟩ := hj
    have hv : runTo rank f (k + 1) =
        ⟨fun x => if x = k then some e else (runTo rank f k).entries x,
        fun x => if x = k then some (exitState rank f k e) else (runTo rank f k).exits x,
        fun x => ((runTo rank f k).queued x ∧ x ≠ k) ∨
          ∃ blk, f.blocks[k]? = some blk ∧ x ∈ blk.term.succs⟩ := by
      simp only [runTo, visit, he]
    rw [hv]
    obtain ⟨hn1, hn2⟩ := h3 k (Nat.le_refl k)
    refine ⟨?_, ?_, ?_, ?_, ?_⟩
    · exact .step h1 (.newExit hq he (by simp [hn1]) (by simp [hn2]))
    · intro x hx
      rcases hx with ⟨hx, hne⟩ | ⟨blk, hb, hx⟩
      · have := h2 x hx; omega
      · rw [hblk] at hb
        simp only [Option.some.injEq] at hb; subst hb
        have := hs x hx
        omega
    · intro x hx
      have hne : x ≠ k := by omega
      simpa [hne] using h3 x (by omega)
    · intro x hx
      by_cases hxk : x = k
      · simp [hxk]
      · simpa [hxk] using h4 x (by omega)
    · intro x hx h
      simp only
      rcases h with h | ⟨a, blk, ha, hb, hmem⟩
      · omega
      · by_cases hak : a = k
        · subst hak; exact .inr ⟨blk, hb, hmem⟩
        · exact .inl ⟨h5 x (by omega) (.inr ⟨a, blk, by omega, hb, hmem⟩), by omega⟩

theorem forward_finished (hf : forwardB f = true) :
    Finished rank f (runTo rank f f.blocks.length) := by
  obtain ⟨h1, h2, _⟩ := forward_run (rank := rank) hf f.blocks.length (Nat.le_refl _)
  refine ⟨h1, fun b hb => ?_⟩
  have := h2 b hb
  omega

/-- The same conditions as `ReadsKept`, to be computed. -/
def readsKeptB (f : Body) : Bool :=
  f.blocks.all fun blk => blk.allOps.all fun op => op.reads.all fun q =>
    q.path.isEmpty ||
      !(f.blocks.any fun blk => blk.allOps.any fun op => op.writes.any (·.root == q.root))

theorem readsKept_of (h : readsKeptB f = true) : ReadsKept f := by
  intro b blk op hb ho q hq
  simp only [readsKeptB, List.all_eq_true, Bool.or_eq_true, List.isEmpty_iff,
    Bool.not_eq_true', List.any_eq_false] at h
  rcases h blk (List.mem_of_getElem? hb) op ho q hq with h | h
  · exact .inl h
  · right
    rintro ⟨b', blk', op', hb', ho', p, hp, he⟩
    have := h blk' (List.mem_of_getElem? hb')
    simp only [List.any_eq_true, not_exists, not_and] at this
    exact this op' ho' p hp (by simpa using he)

theorem edgesApart_of (h : (f.blocks.all fun blk => match blk.term with
    | .invoke _ n e => n != e
    | _ => true) = true) : EdgesApart f := by
  intro b blk op n e hb ht
  have := List.all_eq_true.1 h blk (List.mem_of_getElem? hb)
  rw [ht] at this
  simpa using this

theorem paramsKept_of (h : (f.blocks.all fun blk => blk.allOps.all fun op => match op with
    | .call (.other false) args _ => args.all fun a => !a.2 || match a.1.root with
      | .param _ => false
      | .alloca _ => true
    | _ => true) = true) : ParamsKept f := by
  intro id
  unfold Body.escaped
  rw [Bool.eq_false_iff]
  intro hc
  simp only [List.any_eq_true] at hc
  obtain ⟨blk, hb, op, ho, he⟩ := hc
  have := List.all_eq_true.1 (List.all_eq_true.1 h blk hb) op ho
  unfold Op.escapes at he
  split at he
  · simp only [List.any_eq_true, Bool.and_eq_true, beq_iff_eq] at he
    obtain ⟨a, ha, h1, h2⟩ := he
    have := List.all_eq_true.1 this a ha
    simp [h1, h2] at this
  · simp at he

/-! ### A machine -/

def Mem.set (m : Mem) (p : Place) (v : Val) : Mem :=
  { m with cell := fun q => if q = p then v else m.cell q }

def Mem.kill (m : Mem) (p : Place) : Mem :=
  { m with cell := fun q => if p.covers q then .junk else m.cell q }

def Mem.shift (m : Mem) (src dst : Place) : Mem where
  cell q :=
    if src.covers q then .junk
    else if dst.covers q then m.cell (src.down (q.path.drop dst.path.length)) else m.cell q
  reg := m.reg

theorem set_same (m : Mem) {p q : Place} {v : Val} (h : ¬p.covers q = true) :
    (m.set p v).cell q = m.cell q := by
  simp only [Mem.set]
  rw [if_neg]
  rintro rfl
  exact h (covers_self q)

/-- The writes of an unknown call, where they are allowed. -/
def setAll (args : List (Place × Bool)) (result : Place) : List (Place × Val) → Mem → Mem
  | [], m => m
  | (p, v) :: rest, m =>
    setAll args result rest
      (if result.covers p || args.any (fun a => a.2 && a.1.covers p) then m.set p v else m)

theorem setAll_same {args : List (Place × Bool)} {result : Place} : ∀ (ws : List (Place × Val))
    (m : Mem), SameExcept (CallWrites f args result) m (setAll args result ws m) ∧
      (setAll args result ws m).reg = m.reg := by
  intro ws
  induction ws with
  | nil => intro m; exact ⟨fun q _ => rfl, rfl⟩
  | cons w ws ih =>
    intro m
    obtain ⟨h1, h2⟩ := ih (if result.covers w.1 || args.any (fun a => a.2 && a.1.covers w.1) then
      m.set w.1 w.2 else m)
    refine ⟨fun q hq => ?_, ?_⟩
    · have := h1 q hq
      simp only [setAll]
      rw [this]
      split
      · rename_i hc
        simp only [Mem.set]
        rw [if_neg]
        rintro rfl
        apply hq
        simp only [Bool.or_eq_true, List.any_eq_true, Bool.and_eq_true] at hc
        rcases hc with hc | ⟨a, ha, hc⟩
        · exact .inl hc
        · exact .inr (.inl ⟨a, ha, hc⟩)
      · rfl
    · simp only [setAll]
      rw [h2]
      split <;> rfl

/-- One operation; `ext` tells what the unknown calls write. -/
def exec (ext : Op → List (Place × Val)) (op : Op) (m : Mem) : Option Mem :=
  match op with
  | .alloca id => some (m.kill ⟨.alloca id, []⟩)
  | .storeConst w dst => some (m.set dst (.int w))
  | .buildArray n dst => some (m.set (dst.field lenField) (.int (BitVec.ofNat 64 n)))
  | .drop p => some (m.kill p)
  | .move src dst =>
    if src.covers dst || dst.covers src then none
    else some (m.shift src dst)
  | .compEq r (.place p) tag =>
    if m.cell p = .junk then none
    else some { m with reg := fun x => if x = r then .bool (m.cell p == .tag tag) else m.reg x }
  | .call (.other k) args result => some (setAll args result (ext (.call (.other k) args result)) m)
  | .call c args result =>
    match callValue m c args with
    | some v =>
      if args.all (fun a => !a.2 && !result.covers a.1 && !a.1.covers result) &&
          (callReads c args).all (fun p => m.cell p != .junk) then some (m.set result v) else none
    | none => none
  | _ => none

theorem covers_disjoint {p q x : Place} (h1 : p.covers q = false) (h2 : q.covers p = false)
    (hp : p.covers x = true) : ¬q.covers x = true := by
  intro hq
  simp only [Place.covers, Bool.and_eq_true, beq_iff_eq, List.isPrefixOf_iff_prefix,
    Bool.and_eq_false_iff] at *
  have hroot : p.root = q.root := hp.1.trans hq.1.symm
  rcases List.prefix_or_prefix_of_prefix hp.2 hq.2 with h | h
  · rcases h1 with h1 | h1
    · simp [hroot] at h1
    · rw [List.isPrefixOf_iff_prefix.2 h] at h1; simp at h1
  · rcases h2 with h2 | h2
    · simp [hroot] at h2
    · rw [List.isPrefixOf_iff_prefix.2 h] at h2; simp at h2

theorem covers_down (p : Place) (q : List Nat) : p.covers (p.down q) = true := by
  simp [Place.covers, Place.down]

theorem exec_sound {ext : Op → List (Place × Val)} {op : Op} {m m' : Mem}
    (h : exec ext op m = some m') : OpStep f op m m' := by
  unfold exec at h
  split at h
  · simp only [Option.some.injEq] at h; subst h
    exact .alloca rfl (fun q hq => by simp [Mem.kill, hq]) (fun q hq => by simp [Mem.kill, hq])
  · simp only [Option.some.injEq] at h; subst h
    exact .storeConst rfl (by simp [Mem.set]) (fun q hq => set_same m hq)
  · rename_i n dst
    simp only [Option.some.injEq] at h; subst h
    refine .buildArray rfl (by simp [Mem.set]) (fun q hq => set_same m ?_)
    intro h
    apply hq
    simp only [Place.covers, Place.field, Bool.and_eq_true, beq_iff_eq,
      List.isPrefixOf_iff_prefix] at h ⊢
    exact ⟨h.1, (List.prefix_append _ _).trans h.2⟩
  · simp only [Option.some.injEq] at h; subst h
    exact .drop rfl (fun q hq => by simp [Mem.kill, hq]) (fun q hq => by simp [Mem.kill, hq])
  · rename_i src dst
    split at h
    · simp at h
    · rename_i hn
      simp only [Bool.or_eq_true, not_or, Bool.not_eq_true] at hn
      simp only [Option.some.injEq] at h; subst h
      refine .move rfl ?_ hn ?_ ?_
      · intro q
        have h1 := covers_down dst q
        have h2 : src.covers (dst.down q) = false := by
          rw [Bool.eq_false_iff]
          exact covers_disjoint hn.2 hn.1 h1
        simp only [Mem.shift, h1, h2, if_true, Bool.false_eq_true, if_false]
        simp [Place.down]
      · intro q hq; simp [Mem.shift, hq]
      · intro q hq
        simp only [not_or] at hq
        simp [Mem.shift, hq.1, hq.2]
  · split at h
    · simp at h
    · rename_i hj
      simp only [Option.some.injEq] at h; subst h
      exact .compEqPlace hj
  · rename_i k args result
    simp only [Option.some.injEq] at h; subst h
    obtain ⟨h1, h2⟩ := setAll_same (f := f) (args := args) (result := result)
      (ext (.call (.other k) args result)) m
    exact .other h2 h1
  · rename_i c args result hc
    split at h
    · rename_i v hv
      split at h
      · rename_i hp
        simp only [Bool.and_eq_true, List.all_eq_true, Bool.not_eq_true', bne_iff_ne] at hp
        simp only [Option.some.injEq] at h; subst h
        exact .compute (fun a ha => ⟨(hp.1 a ha).1.1, (hp.1 a ha).1.2, (hp.1 a ha).2⟩) hp.2 hv rfl
          (by simp [Mem.set]) (fun q hq => set_same m hq)
      · simp at h
    · simp at h
  · simp at h

/-- One step of the machine. -/
def stepAt (ext : Op → List (Place × Val)) (f : Body) (ok : Op → Mem → Bool) :
    Nat × Nat × Mem → Option (Nat × Nat × Mem)
  | (b, i, m) =>
    match f.blocks[b]? with
    | none => none
    | some blk =>
      match blk.ops[i]? with
      | some op => if ok op m then (exec ext op m).map (fun m' => (b, i + 1, m')) else none
      | none =>
        if i = blk.ops.length then
          match blk.term with
          | .goto t => some (t, 0, m)
          | .condBr c thn els =>
            match m.reg c with
            | .bool v => some (if v then thn else els, 0, m)
            | _ => none
          | .invoke op n _ =>
            if ok op m then (exec ext op m).map (fun m' => (n, 0, m')) else none
          | .exit => none
        else none

def execute (ext : Op → List (Place × Val)) (f : Body) (ok : Op → Mem → Bool) :
    Nat → Nat × Nat × Mem → Option (Nat × Nat × Mem)
  | 0, s => some s
  | k + 1, s => match stepAt ext f ok s with
    | some s' => execute ext f ok k s'
    | none => none

theorem execute_reach {ext : Op → List (Place × Val)} {ok : Op → Mem → Bool} {m₀ : Mem}
    {P : Op → Mem → Prop} (hP : ∀ op m, ok op m = true → P op m) :
    ∀ (k b i : Nat) (m : Mem) (s : Nat × Nat × Mem), Reach f P m₀ b i m →
    execute ext f ok k (b, i, m) = some s → Reach f P m₀ s.1 s.2.1 s.2.2 := by
  intro k
  induction k with
  | zero =>
    intro b i m s hr h
    simp only [execute, Option.some.injEq] at h; subst h
    exact hr
  | succ k ih =>
    intro b i m s hr h
    simp only [execute] at h
    split at h
    · rename_i s' hs
      have : Reach f P m₀ s'.1 s'.2.1 s'.2.2 := by
        simp only [stepAt] at hs
        split at hs
        · simp at hs
        · rename_i blk hb
          split at hs
          · rename_i op ho
            split at hs
            · rename_i hok
              simp only [Option.map_eq_some_iff] at hs
              obtain ⟨m', hm', rfl⟩ := hs
              exact .op hr hb ho (hP op m hok) (exec_sound hm')
            · simp at hs
          · split at hs
            · rename_i hi
              subst hi
              split at hs
              · rename_i ht
                simp only [Option.some.injEq] at hs; subst hs
                exact .goto hr hb ht
              · rename_i ht
                split at hs
                · rename_i v hv
                  simp only [Option.some.injEq] at hs; subst hs
                  exact .condBr hr hb ht hv
                · simp at hs
              · rename_i op n _ ht
                split at hs
                · rename_i hok
                  simp only [Option.map_eq_some_iff] at hs
                  obtain ⟨m', hm', rfl⟩ := hs
                  exact .invokeOk hr hb ht (hP op m hok) (exec_sound hm')
                · simp at hs
              · simp at hs
            · simp at hs
      exact ih s'.1 s'.2.1 s'.2.2 s this h
    · simp at h

/-- The memory after `k` steps from the start. -/
def memAfter (ext : Op → List (Place × Val)) (f : Body) (ok : Op → Mem → Bool) (k : Nat)
    (m₀ : Mem) : Mem := ((execute ext f ok k (0, 0, m₀)).map (·.2.2)).getD m₀

theorem machine_reach {ext : Op → List (Place × Val)} {ok : Op → Mem → Bool} {m₀ : Mem}
    {P : Op → Mem → Prop} (hP : ∀ op m, ok op m = true → P op m) {k b i : Nat}
    (h : (execute ext f ok k (0, 0, m₀)).map (fun s => (s.1, s.2.1)) = some (b, i)) :
    Reach f P m₀ b i (memAfter ext f ok k m₀) := by
  cases he : execute ext f ok k (0, 0, m₀) with
  | none => rw [he] at h; simp at h
  | some s =>
    rw [he] at h
    simp only [Option.map_some, Option.some.injEq, Prod.mk.injEq] at h
    have := execute_reach hP k 0 0 m₀ s .start he
    rw [h.1, h.2] at this
    simpa [memAfter, he] using this

/-- The state of the analysis at a point of a body whose edges go forward. -/
def stateAt (rank : Symbol → Nat) (f : Body) (b i : Nat) : State :=
  (pointState rank f (runTo rank f f.blocks.length) b i).getD .empty

theorem stateAt_eq {b i : Nat}
    (h : (pointState rank f (runTo rank f f.blocks.length) b i).isSome = true) :
    pointState rank f (runTo rank f f.blocks.length) b i = some (stateAt rank f b i) := by
  unfold stateAt
  cases hp : pointState rank f (runTo rank f f.blocks.length) b i with
  | none => rw [hp] at h; simp at h
  | some st => rfl

end

end Ferlium.Relations
