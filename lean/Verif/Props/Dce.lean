import Verif.Proofs.DceDerived

/-!
# C87: the removal of unused computations is invisible

`Same F` (in `Verif/Proofs/DceSim.lean`) compares two runs as the caller sees them: both are still
running after the same number of blocks, or both stop with the same world, or both return with the
same world and the same contents of all storage that the function did not make itself.
-/

namespace Ferlium.Dce

variable {V W : Type}

/-- `order` enumerates the keys of a hash map, in any order. -/
def Enumerates (order : List Reg) (c : Cands) : Prop := ∀ r, r ∈ order ↔ (c.get r).isSome

/-- **C87**: removing unread comparisons, loads and tags does not panic and is invisible, if these
operations do nothing but compute their result. -/
theorem C87_trivial (sem : Sem V W) (F : Fn) (wf : WellFormed F)
    (hq : ∀ n k, k = .compareEqual ∨ k = .load ∨ k = .extractTag → Quiet sem k n (fun _ => False))
    (order : List Reg) (ho : Enumerates order (trivialCandidates F)) :
    ∃ F', removeDeadTrivialResults F order = some F' ∧
      ∀ n b s, Entry F s → Same F (run sem F n b s) (run sem F' n b s) := by
  obtain ⟨removed, h1, _, h3, _⟩ := deadResults_spec (trivial_ok F) ho
  exact ⟨_, by simp only [removeDeadTrivialResults, h1, Option.map_some],
    fun n b s hs => (trivial_harmless wf hq h3).run n b hs⟩

/-- A call without observable effects that gives a value, and either is known to return, or calls a
function of the program that always returns, with arguments by value that the function does not own, no
hidden operands, and a result that need not be dropped.  `extras` is the number of hidden operands. -/
def Proven (info : CallInfo) (extras : Nat) : Prop :=
  info.effectFree = true ∧ info.valueResult = true ∧
    (info.knownTotal = true ∨ ∃ conventions, info.script = some conventions ∧ conventions.length = info.args ∧
      (∀ c ∈ conventions, c = true) ∧ info.ownedArgs = false ∧ extras = 0 ∧ info.trivialResult = true ∧
      info.willReturn = true)

theorem eligible_iff (info : CallInfo) (n : Nat) : eligible info n = true ↔ Proven info n := by
  unfold eligible Proven
  cases hs : info.script with
  | none => simp [and_assoc]
  | some c => simp [and_assoc, and_left_comm, and_comm]

/-- **C87**: removing calls whose results nobody reads does not panic and is invisible, if such
calls return, leave the world alone, and write to nothing but their result. -/
theorem C87_calls (sem : Sem V W) (F : Fn) (wf : WellFormed F)
    (hq : ∀ info n, Proven info n →
      Quiet sem (.call info) (info.args + 2 + n) (fun i => i + 1 = info.args + 2 + n))
    (order : List Reg) (ho : Enumerates order (callCandidates F)) :
    ∃ F', removeDeadProvenCalls F order = some F' ∧
      ∀ n b s, Entry F s → Same F (run sem F n b s) (run sem F' n b s) := by
  obtain ⟨removed, h1, _, h3, _⟩ := deadResults_spec (call_ok F) ho
  exact ⟨_, by simp only [removeDeadProvenCalls, h1, Option.map_some],
    fun n b s hs => (call_harmless wf (fun info n h => hq info n ((eligible_iff info n).1 h)) h3).run n b hs⟩

/-- **C87**, partial: removing storage that nobody reads, together with its initialisation, its
cleanup and the places derived for them, does not panic and is invisible, if these operations do what
they are meant to do.  Missing: clones and drops of the same block that cancel in storage with other
lifetimes, and empty stack regions. -/
theorem C87_storage_partial (sem : Sem V W) (F : Fn) (wf : WellFormed F) (hq : QuietStorage sem)
    (admit : Bool) (order : List Reg) (ho : Enumerates order (derived F)) :
    ∃ F', removeDeadStorage F admit order = some F' ∧
      ∀ n b s, Entry F s → Same F (run sem F n b s) (run sem F' n b s) := by
  obtain ⟨results, h1, h2⟩ := unreadDerived_spec
    (gone := deadStorage F admit) (fun r s h => derived_not_gone h) ho
  refine ⟨F.remove (allGone F (deadStorage F admit) results), ?_, fun n b s hs =>
    (storage_harmless wf admit hq (fun x hx => (h2 x).mp hx)).run n b hs⟩
  simp only [removeDeadStorage, h1, Option.map_some]
  rfl

/-- **C87**: exactly those candidates go whose uses are all in candidates that go: `Dead` is the
least such set.  In particular cycles of unread results stay, and the order in which a hash map gives
its keys does not matter. -/
theorem C87_least (F : Fn) (cand : Reg → Option Site) (deadAt : Nat) (order : List Reg)
    (hc : CandOk F cand deadAt) (ho : ∀ r, r ∈ order ↔ (cand r).isSome) :
    ∃ removed, deadResults F cand deadAt order = some removed ∧
      ∀ s, s ∈ removed ↔ ∃ r, cand r = some s ∧ Dead F cand deadAt r := by
  obtain ⟨removed, h1, h2, _⟩ := deadResults_spec hc ho
  exact ⟨removed, h1, h2⟩

theorem remove_congr {F : Fn} {d d' : Site → Bool} (h : ∀ s, d s = d' s) :
    F.remove d = F.remove d' := by
  rw [show d = d' from funext h]

/-- **C87**: compiling twice gives the same function, whatever the order of the hash map. -/
theorem C87_order (F : Fn) (o o' : List Reg) :
    (Enumerates o (trivialCandidates F) → Enumerates o' (trivialCandidates F) →
      removeDeadTrivialResults F o = removeDeadTrivialResults F o') ∧
    (Enumerates o (callCandidates F) → Enumerates o' (callCandidates F) →
      removeDeadProvenCalls F o = removeDeadProvenCalls F o') := by
  constructor
  · intro h h'
    obtain ⟨r, h1, h2, _⟩ := deadResults_spec (trivial_ok F) h
    obtain ⟨r', h1', h2', _⟩ := deadResults_spec (trivial_ok F) h'
    simp only [removeDeadTrivialResults, h1, h1', Option.map_some]
    congr 1
    apply remove_congr
    exact fun s => decide_eq_decide.mpr ((h2 s).trans (h2' s).symm)
  · intro h h'
    obtain ⟨r, h1, h2, _⟩ := deadResults_spec (call_ok F) h
    obtain ⟨r', h1', h2', _⟩ := deadResults_spec (call_ok F) h'
    simp only [removeDeadProvenCalls, h1, h1', Option.map_some]
    congr 1
    apply remove_congr
    exact fun s => decide_eq_decide.mpr ((h2 s).trans (h2' s).symm)

theorem keep_mem {dead : Site → Bool} {b : Nat} {l : List Op} {i : Nat} {op : Op}
    (h : op ∈ keep dead b i l) : ∃ j, l[j]? = some op ∧ dead (b, i + j) = false := by
  induction l generalizing i with
  | nil => cases h
  | cons a l ih =>
    have next : op ∈ keep dead b (i + 1) l → ∃ j, (a :: l)[j]? = some op ∧
        dead (b, i + j) = false := by
      intro h
      obtain ⟨j, h1, h2⟩ := ih h
      exact ⟨j + 1, by simpa using h1, by rwa [show i + (j + 1) = i + 1 + j by omega]⟩
    simp only [keep] at h
    split at h
    · exact next h
    · rename_i hd
      rcases List.mem_cons.mp h with rfl | h
      · exact ⟨0, rfl, by simpa using hd⟩
      · exact next h

theorem remove_op {F : Fn} {dead : Site → Bool} {s : Site} {op : Op}
    (h : (F.remove dead).op? s = some op) : ∃ s', F.op? s' = some op ∧ dead s' = false := by
  obtain ⟨blk, h1, h2⟩ := op?_some h
  simp only [Fn.remove, keepBlocks_get, Nat.zero_add, Option.map_eq_some_iff] at h1
  obtain ⟨blk', h3, rfl⟩ := h1
  obtain ⟨j, h4, h5⟩ := keep_mem (List.mem_of_getElem? h2)
  rw [Nat.zero_add] at h5
  exact ⟨(s.1, j), op?_of h3 h4, h5⟩

theorem sum_keep (dead : Site → Bool) (b : Nat) (f : Op → Nat) (l : List Op) (i k : Nat) :
    sumIdx (fun _ op => f op) k (keep dead b i l) =
      sumIdx (fun j op => if dead (b, j) then 0 else f op) i l := by
  induction l generalizing i k with
  | nil => rfl
  | cons a l ih =>
    simp only [keep]
    split
    · rename_i h; simp only [sumIdx, h, if_true, Nat.zero_add]; exact ih _ _
    · rename_i h; simp only [sumIdx, h, if_false, Bool.false_eq_true]; rw [ih]

theorem uses_remove (F : Fn) (dead : Site → Bool) (r : Reg) :
    uses (F.remove dead) r = kept F dead r := by
  have : ∀ (l : List Block) b k,
      sumIdx (fun _ blk => sumIdx (fun _ op => occ r op.operands) 0 blk.ops +
        occ r blk.term.operands) k (keepBlocks dead b l) =
      sumIdx (fun b blk => sumIdx (fun i op => if dead (b, i) then 0 else occ r op.operands) 0
        blk.ops + occ r blk.term.operands) b l := by
    intro l
    induction l with
    | nil => intro b k; rfl
    | cons a l ih =>
      intro b k
      simp only [keepBlocks, sumIdx]
      rw [ih, sum_keep dead b (fun op => occ r op.operands)]
  exact this F.blocks 0 0

/-- **C87**: one pass is enough for chains: whatever comparison, load or tag is left, its result is
used by what is left. -/
theorem C87_chains (F : Fn) (wf : WellFormed F) (order : List Reg)
    (ho : Enumerates order (trivialCandidates F)) :
    ∃ F', removeDeadTrivialResults F order = some F' ∧
      ∀ s op r, F'.op? s = some op →
        op.kind = .compareEqual ∨ op.kind = .load ∨ op.kind = .extractTag →
        op.result = some r → uses F' r ≠ 0 := by
  obtain ⟨removed, h1, _, _, h4⟩ := deadResults_spec (trivial_ok F) ho
  refine ⟨F.remove (· ∈ removed), by simp only [removeDeadTrivialResults, h1, Option.map_some], ?_⟩
  intro s op r hs hk hr
  obtain ⟨s', hs', hd⟩ := remove_op hs
  rw [uses_remove]
  have hsome : ((trivialCandidates F).get r).isSome := by
    apply Cands.get_isSome (s := s')
    simp only [trivialCandidates, List.mem_reverse, List.mem_filterMap]
    refine ⟨(s', op), mem_allOps.mpr hs', ?_⟩
    rcases hk with hk | hk | hk <;> simp [trivialCandidate, hk, hr]
  obtain ⟨s'', h5⟩ := Option.isSome_iff_exists.mp hsome
  obtain ⟨op', h6, h7, _⟩ := trivialCandidates_get h5
  have := wf.ssa s' s'' op op' r hs' h6 hr h7
  subst this
  exact h4 r s' h5 (by simpa using hd)

/-- **C87**: the same for the places derived from others. -/
theorem C87_places (F : Fn) (wf : WellFormed F) (admit : Bool) (order : List Reg)
    (ho : Enumerates order (derived F)) :
    ∃ F', removeDeadStorage F admit order = some F' ∧
      ∀ s op r, F'.op? s = some op → op.kind = .dictEntry ∨ op.kind = .subfield →
        op.result = some r → uses F' r ≠ 0 := by
  obtain ⟨results, h1, h2⟩ := unreadDerived_spec
    (gone := deadStorage F admit) (fun r s h => derived_not_gone h) ho
  refine ⟨F.remove (allGone F (deadStorage F admit) results),
    by simp only [removeDeadStorage, h1, Option.map_some]; rfl, ?_⟩
  intro s op r hs hk hr
  obtain ⟨s', hs', hd⟩ := remove_op hs
  rw [uses_remove]
  have hsome : ((derived F).get r).isSome := by
    apply Cands.get_isSome (s := s')
    simp only [derived, List.mem_reverse, List.mem_filterMap]
    refine ⟨(s', op), mem_allOps.mpr hs', ?_⟩
    rcases hk with hk | hk <;> simp [derivedOf, hk, hr]
  intro hz
  have hm := (h2 r).mpr ⟨hsome, hz⟩
  obtain ⟨s'', h5⟩ := Option.isSome_iff_exists.mp hsome
  obtain ⟨op', h6, h7, _⟩ := derived_get h5
  have := wf.ssa s' s'' op op' r hs' h6 hr h7
  subst this
  have : allGone F (deadStorage F admit) results s' = true := by
    simp only [allGone, decide_eq_true_eq, List.mem_filterMap]
    exact .inr ⟨r, hm, h5⟩
  rw [this] at hd
  cases hd

/-! ## Examples -/

/-- A test for `WellFormed`. -/
def wfCheck (F : Fn) : Bool :=
  F.allOps.all (fun p => F.allOps.all fun q =>
    p.2.result == none || p.2.result != q.2.result || p.1 == q.1) &&
  F.blocks.all (fun blk => blk.term.result == none ||
    F.allOps.all fun p => p.2.result != blk.term.result) &&
  F.allOps.all fun p =>
    match p.2.kind with
    | .store | .clone | .drop | .buildArray | .call _ => p.2.result == none
    | _ => true

theorem wellFormed_of {F : Fn} (h : wfCheck F = true) : WellFormed F := by
  simp only [wfCheck, Bool.and_eq_true, List.all_eq_true, Bool.or_eq_true, beq_iff_eq,
    bne_iff_ne] at h
  obtain ⟨⟨h1, h2⟩, h3⟩ := h
  refine ⟨?_, ?_, ?_⟩
  · intro s s' op op' r hs hs' hr hr'
    rcases h1 (s, op) (mem_allOps.mpr hs) (s', op') (mem_allOps.mpr hs') with (h | h) | h
    · simp only at h; rw [hr] at h; cases h
    · simp only at h; rw [hr, hr'] at h; exact absurd rfl h
    · exact h
  · intro b blk r hb hr s op hs hres
    rcases h2 blk (List.mem_of_getElem? hb) with h | h
    · rw [hr] at h; cases h
    · exact h (s, op) (mem_allOps.mpr hs) (by rw [hr]; exact hres)
  · intro s op hs hk
    have := h3 (s, op) (mem_allOps.mpr hs)
    simp only at this
    rcases hk with hk | hk | hk | hk | ⟨info, hk⟩ <;> · rw [hk] at this; simpa using this

/-- A machine in which an operation adds up the numbers that it sees, in its operands and their
cells; `store`, `clone`, `buildArray` and calls leave the sum where they are meant to, `drop` leaves
`0`, other operations add it to the world, which is a counter. -/
def seenSum : List (Seen Nat) → Nat
  | [] => 0
  | ⟨.value v, _⟩ :: rest => v + seenSum rest
  | ⟨.place _ p, c⟩ :: rest => p + c.getD 0 + seenSum rest

/-- See `seenSum`. -/
def exSem : Sem Nat Nat where
  op k args w :=
    match k with
    | .store => .ok ⟨.value 0, [none, some (seenSum (args.take 1))], w⟩
    | .clone => .ok ⟨.value 0, [none, some (seenSum (args.take 1))], w⟩
    | .drop => .ok ⟨.value 0, [some 0], w⟩
    | .buildArray => .ok ⟨.value 0, List.replicate (args.length - 1) none ++ [some (seenSum args)], w⟩
    | .call info =>
      if eligible info (args.length - (info.args + 2)) then
        .ok ⟨.value 0, List.replicate (args.length - 1) none ++ [some (seenSum args)], w⟩
      else .ok ⟨.value 0, [], w + seenSum args⟩
    | .dictEntry | .subfield => .ok ⟨.place 0 (seenSum (args.drop 1)), [], w⟩
    | .load | .compareEqual | .extractTag => .ok ⟨.value (seenSum args), [], w⟩
    | _ => .ok ⟨.value 0, [], w + seenSum args⟩
  term tag args w := if tag = 0 then .ret ⟨.value 0, [], w + seenSum args⟩ else .goto tag ⟨.value 0, [], w⟩
  lit o := match o with | .const c => c | _ => 0
  fresh := 7

theorem last_only {l : List (Option Nat)} {n i v : Nat} {x : Nat} (hl : l = List.replicate n none ++ [some x])
    (h : l[i]? = some (some v)) : i = n := by
  subst hl
  rw [List.getElem?_append] at h
  split at h
  · simp [List.getElem?_replicate] at h
  · rename_i hlt
    simp only [List.length_replicate] at h hlt
    cases hd : i - n with
    | zero => omega
    | succ m => rw [hd] at h; simp at h

theorem exSem_trivial : ∀ n k, k = .compareEqual ∨ k = .load ∨ k = .extractTag →
    Quiet exSem k n (fun _ => False) := by
  rintro n k (rfl | rfl | rfl) args w _ <;> exact ⟨_, rfl, rfl, by simp⟩

theorem exSem_calls : ∀ info n, Proven info n →
    Quiet exSem (.call info) (info.args + 2 + n) (fun i => i + 1 = info.args + 2 + n) := by
  intro info n he args w hlen
  have he := (eligible_iff info n).2 he
  have : args.length - (info.args + 2) = n := by omega
  refine ⟨⟨.value 0, List.replicate (args.length - 1) none ++ [some (seenSum args)], w⟩,
    by simp [exSem, this, he], rfl, ?_⟩
  intro i v hv
  have := last_only rfl hv
  omega

theorem exSem_storage : QuietStorage exSem where
  store n args w _ := ⟨_, rfl, rfl, fun i v hv => by
    match i with
    | 0 => simp at hv
    | 1 => rfl
    | i + 2 => simp at hv⟩
  clone n args w _ := ⟨_, rfl, rfl, fun i v hv => by
    match i with
    | 0 => simp at hv
    | 1 => rfl
    | i + 2 => simp at hv⟩
  drop n args w _ := ⟨_, rfl, rfl, fun i v hv => by
    match i with
    | 0 => rfl
    | i + 1 => simp at hv⟩
  buildArray n args w hlen := ⟨⟨.value 0, List.replicate (args.length - 1) none ++
      [some (seenSum args)], w⟩, rfl, rfl, fun i v hv => by
    have := last_only rfl hv
    omega⟩
  dictEntry n args w _ := ⟨_, rfl, rfl, by simp⟩
  subfield n args w _ := ⟨_, rfl, rfl, by simp⟩

/-- A total call of a function with one argument. -/
def exCall : CallInfo := ⟨1, true, true, true, none, false, false, false⟩

/-- A call of a script function that is proved to return. -/
def exScript : CallInfo := ⟨1, true, true, false, some [true], false, true, true⟩

/-- Register `0` is a parameter.  Unread: the comparison `6` and with it the load `5`; the places `4`
and `3`; the constant in `1`; the clone in `2`; the call into `7` and with it the call into `8`. -/
def exFn : Fn := ⟨[
  ⟨[⟨.alloca, [], some 1⟩,
    ⟨.store, [.const 5, .reg 1], none⟩,
    ⟨.alloca, [], some 2⟩,
    ⟨.clone, [.reg 0, .reg 2], none⟩,
    ⟨.drop, [.reg 2], none⟩,
    ⟨.subfield, [.reg 0], some 3⟩,
    ⟨.subfield, [.reg 3, .const 2], some 4⟩,
    ⟨.load, [.reg 0], some 5⟩,
    ⟨.compareEqual, [.reg 5, .reg 5], some 6⟩,
    ⟨.alloca, [], some 8⟩,
    ⟨.call exScript, [.func 0, .reg 0, .reg 8], none⟩,
    ⟨.alloca, [], some 7⟩,
    ⟨.call exCall, [.func 0, .reg 8, .reg 7], none⟩,
    ⟨.other 1 false, [.reg 0], none⟩], ⟨1, [], none⟩⟩,
  ⟨[⟨.load, [.reg 0], some 9⟩], ⟨0, [.reg 9], none⟩⟩]⟩

/-- The parameter is a place in storage of the caller that contains `3`. -/
def exState : State Nat Nat :=
  ⟨fun r => if r = 0 then .place (100, 0) 0 else .value 0, fun a => if a = (100, 0) then 3 else 0,
    fun _ => 0, 40⟩

theorem exWf : WellFormed exFn := wellFormed_of (by decide)

theorem exEntry : Entry exFn exState := by
  have hl : ∀ r, Local exFn r → r ∈ (allocas exFn).map (·.1) := by
    rintro r ⟨s, op, h1, h2, h3⟩
    exact List.mem_map.mpr ⟨(r, s), allocas_mem.mpr ⟨op, h1, h2, h3⟩, rfl⟩
  have hlist : (allocas exFn).map (·.1) = [7, 8, 2, 1] := by decide
  rw [hlist] at hl
  refine ⟨?_, ?_⟩
  · intro x c p h hloc
    simp only [exState] at h
    split at h
    · cases h
      have := hl _ hloc
      simp at this
    · cases h
  · intro x c p hloc h
    simp only [exState] at h
    split at h
    · rename_i e
      subst e
      have := hl _ hloc
      simp at this
    · cases h

theorem enumerates_keys (c : Cands) : Enumerates (c.map (·.1)) c := by
  intro r
  constructor
  · intro h
    obtain ⟨p, h1, rfl⟩ := List.mem_map.mp h
    exact Cands.get_isSome h1
  · intro h
    obtain ⟨s, hs⟩ := Option.isSome_iff_exists.mp h
    exact List.mem_map.mpr ⟨_, Cands.get_mem hs, rfl⟩

/-- The theorems apply to the example, and the passes remove what they are meant to: two
operations. -/
example : removeDeadTrivialResults exFn [9, 6, 5] = some ⟨[
    ⟨[⟨.alloca, [], some 1⟩,
      ⟨.store, [.const 5, .reg 1], none⟩,
      ⟨.alloca, [], some 2⟩,
      ⟨.clone, [.reg 0, .reg 2], none⟩,
      ⟨.drop, [.reg 2], none⟩,
      ⟨.subfield, [.reg 0], some 3⟩,
      ⟨.subfield, [.reg 3, .const 2], some 4⟩,
      ⟨.alloca, [], some 8⟩,
      ⟨.call exScript, [.func 0, .reg 0, .reg 8], none⟩,
      ⟨.alloca, [], some 7⟩,
      ⟨.call exCall, [.func 0, .reg 8, .reg 7], none⟩,
      ⟨.other 1 false, [.reg 0], none⟩], ⟨1, [], none⟩⟩,
    ⟨[⟨.load, [.reg 0], some 9⟩], ⟨0, [.reg 9], none⟩⟩]⟩ ∧
    ∃ F', removeDeadTrivialResults exFn [9, 6, 5] = some F' ∧
      ∀ n b, Same exFn (run exSem exFn n b exState) (run exSem F' n b exState) := by
  refine ⟨by decide, ?_⟩
  obtain ⟨F', h1, h2⟩ := C87_trivial exSem exFn exWf exSem_trivial _
    (enumerates_keys (trivialCandidates exFn))
  exact ⟨F', h1, fun n b => h2 n b exState exEntry⟩

/-- Both calls go, the second one first. -/
example : (removeDeadProvenCalls exFn [7, 8]).map (fun F => (F.blocks.map (·.ops.length))) =
      some [12, 1] ∧
    ∃ F', removeDeadProvenCalls exFn ((callCandidates exFn).map (·.1)) = some F' ∧
      ∀ n b, Same exFn (run exSem exFn n b exState) (run exSem F' n b exState) := by
  refine ⟨by decide, ?_⟩
  obtain ⟨F', h1, h2⟩ := C87_calls exSem exFn exWf exSem_calls _
    (enumerates_keys (callCandidates exFn))
  exact ⟨F', h1, fun n b => h2 n b exState exEntry⟩

/-- A constant, a clone with its drop, their storage and two places go. -/
example : removeDeadStorage exFn false [3, 4] = some ⟨[
    ⟨[⟨.load, [.reg 0], some 5⟩,
      ⟨.compareEqual, [.reg 5, .reg 5], some 6⟩,
      ⟨.alloca, [], some 8⟩,
      ⟨.call exScript, [.func 0, .reg 0, .reg 8], none⟩,
      ⟨.alloca, [], some 7⟩,
      ⟨.call exCall, [.func 0, .reg 8, .reg 7], none⟩,
      ⟨.other 1 false, [.reg 0], none⟩], ⟨1, [], none⟩⟩,
    ⟨[⟨.load, [.reg 0], some 9⟩], ⟨0, [.reg 9], none⟩⟩]⟩ ∧
    ∃ F', removeDeadStorage exFn false ((derived exFn).map (·.1)) = some F' ∧
      ∀ n b, Same exFn (run exSem exFn n b exState) (run exSem F' n b exState) := by
  refine ⟨by decide, ?_⟩
  obtain ⟨F', h1, h2⟩ := C87_storage_partial exSem exFn exWf exSem_storage false _
    (enumerates_keys (derived exFn))
  exact ⟨F', h1, fun n b => h2 n b exState exEntry⟩

/-- The example returns with a world that depends on the caller's cell. -/
example : ∃ s, run exSem exFn 2 0 exState = some (.returned s) ∧ s.world = 46 :=
  ⟨_, rfl, rfl⟩

/-- A cycle of unread results stays: a load that is only used by itself. -/
example : removeDeadTrivialResults
    ⟨[⟨[⟨.load, [.reg 2], some 1⟩, ⟨.load, [.reg 1], some 2⟩], ⟨0, [], none⟩⟩]⟩ [1, 2] =
    some ⟨[⟨[⟨.load, [.reg 2], some 1⟩, ⟨.load, [.reg 1], some 2⟩], ⟨0, [], none⟩⟩]⟩ := by decide

/-- Storage with other uses stays: two constructors; a constructor that is never dropped; a clone
of the storage; a store of a register that owns its value; a use by a terminator; a call which may
change its argument. -/
example : (removeDeadStorage
      ⟨[⟨[⟨.alloca, [], some 1⟩, ⟨.clone, [.reg 0, .reg 1], none⟩, ⟨.clone, [.reg 0, .reg 1], none⟩,
        ⟨.drop, [.reg 1], none⟩, ⟨.alloca, [], some 2⟩, ⟨.clone, [.reg 0, .reg 2], none⟩,
        ⟨.alloca, [], some 3⟩, ⟨.store, [.const 1, .reg 3], none⟩,
        ⟨.clone, [.reg 3, .reg 0], none⟩, ⟨.alloca, [], some 4⟩, ⟨.other 0 true, [], some 5⟩,
        ⟨.store, [.reg 5, .reg 4], none⟩, ⟨.alloca, [], some 6⟩], ⟨0, [.reg 6], none⟩⟩]⟩ true
      []).map (fun F => F.blocks.map (·.ops.length)) = some [13] ∧
    removeDeadProvenCalls
      ⟨[⟨[⟨.alloca, [], some 1⟩,
        ⟨.call { exScript with script := some [false] }, [.func 0, .reg 0, .reg 1], none⟩],
        ⟨0, [], none⟩⟩]⟩ [] =
      some ⟨[⟨[⟨.alloca, [], some 1⟩,
        ⟨.call { exScript with script := some [false] }, [.func 0, .reg 0, .reg 1], none⟩],
        ⟨0, [], none⟩⟩]⟩ := by
  decide

/-- The stored value of a register that does not own it may go only if the pass is asked to. -/
example : ((removeDeadStorage ⟨[⟨[⟨.load, [.reg 0], some 2⟩, ⟨.alloca, [], some 1⟩,
      ⟨.store, [.reg 2, .reg 1], none⟩], ⟨0, [], none⟩⟩]⟩ false []).map
      (fun F => F.blocks.map (·.ops.length)) = some [3]) ∧
    ((removeDeadStorage ⟨[⟨[⟨.load, [.reg 0], some 2⟩, ⟨.alloca, [], some 1⟩,
      ⟨.store, [.reg 2, .reg 1], none⟩], ⟨0, [], none⟩⟩]⟩ true []).map
      (fun F => F.blocks.map (·.ops.length)) = some [1]) := by
  decide

/-- **C87**, the assumption on clones is needed: a program with its own way to clone a value, which
stops the program (or does not return), runs on when the clone is removed. -/
theorem C87_clone_violated :
    ∃ (sem : Sem Nat Nat) (F : Fn) (s : State Nat Nat) (F' : Fn), WellFormed F ∧ Entry F s ∧
      (∀ k args w, k ≠ .clone → sem.op k args w = exSem.op k args w) ∧
      removeDeadStorage F false ((derived F).map (·.1)) = some F' ∧
      ¬ Same F (run sem F 2 0 s) (run sem F' 2 0 s) := by
  refine ⟨{ exSem with op := fun k args w => if k = .clone then .stop w else exSem.op k args w },
    exFn, exState, _, exWf, exEntry, fun k args w h => by simp [h], rfl, ?_⟩
  intro h
  have h1 : run { exSem with op := fun k args w => if k = .clone then .stop w else exSem.op k args w }
      exFn 2 0 exState = some (.stopped 40) := rfl
  rw [h1] at h
  have h2 : ∀ o : Option (Outcome Nat Nat), Same exFn (some (.stopped 40)) o →
      o = some (.stopped 40) := by
    intro o h; cases h; rfl
  have h3 := h2 _ h
  exact absurd h3 (by
    intro h3
    have : ∀ o : Option (Outcome Nat Nat), o = some (.stopped 40) →
      (match o with | some (.returned _) => true | _ => false) = false := by
      intro o h; subst h; rfl
    have := this _ h3
    exact absurd this (by decide))

end Ferlium.Dce
