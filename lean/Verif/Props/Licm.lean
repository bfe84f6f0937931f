import Verif.Proofs.LicmTotal
import Verif.Props.Dominance
import Mathlib.Tactic

/-!
# C92: moving calls out of loops
-/

namespace Ferlium.Licm

variable {V W : Type}

/-- Calls of known functions that have no effect and return, and only read their arguments. -/
def PureCall (willReturn : Nat → Bool) (op : Op) : Prop :=
  ∃ info f, op.kind = .call info ∧ info.effectFree = true ∧ (∀ m ∈ info.muts, m = false) ∧ info.owned = [] ∧
    op.operands.head? = some (.func f) ∧ willReturn f = true

/-- What is assumed about the meaning of operations: a call as above on initialised arguments gives a value that
depends on nothing else, and leaves the world as it is; so does the making of storage of a known size. -/
structure Lawful (sem : Sem V W) (ρ : Reg → Option Root) (willReturn : Nat → Bool) : Prop where
  call : ∀ op, PureCall willReturn op → ∀ args : List (Option V × Option V), args.length = op.operands.length →
    (∀ (i : Nat) o q, op.operands[i]? = some o → i + 1 < op.operands.length → place ρ o = some q →
      ∃ a, args[i]? = some a ∧ a.2 ≠ none) →
    ∃ v, ∀ w, ∃ res l, sem.op op args w = .ok res l w ∧ (l[op.operands.length - 1]?).getD none = some v
  alloca : ∀ op ty, op.kind = .alloca ty → op.operands = [] → ∀ w, ∃ res l, sem.op op [] w = .ok res l w

theorem eligible_pure {trivial willReturn : Nat → Bool} {op : Op} (h : eligibleCall trivial willReturn op ≠ none) :
    PureCall willReturn op := by
  obtain ⟨c, hc⟩ := Option.ne_none_iff_exists'.mp h
  obtain ⟨info, f, h1, h2, -, h4, h5, h6, h7, h8, -⟩ := eligibleCall_spec hc
  refine ⟨info, f, h1, h2, ?_, h4, ?_, h8⟩
  · unfold callOperands at h5
    simp only at h5
    split at h5
    · rename_i hlen
      split at h5
      · cases h5
        intro m hm
        obtain ⟨i, hi, rfl⟩ := List.getElem_of_mem hm
        have hl : i < (((op.operands.drop (1 + (op.operands.length - (info.muts.length + 2)))).take info.muts.length).zip
            info.muts).length := by
          simp only [List.length_zip, List.length_take, List.length_drop]; omega
        have := h6 _ (List.getElem_mem hl)
        simpa using this
      · simp at h5
    · simp at h5
  · unfold callOperands at h5
    simp only at h5
    split at h5
    · split at h5
      · rename_i a _ h _
        cases h5
        simp only at h7
        rw [h, h7]
      · simp at h5
    · simp at h5

/-- One move.  For every call that the pass finds: the call is one of a known function without effects; the
operations can be moved; and every run of the function has a run of the function afterwards with the same
number of blocks that ends in the same way, in the same world, with the same contents of all storage but that of
the result of the call. -/
theorem C92_hoist_keeps_runs_partial {F : Fn} (wf : Wf F) {ρ : Reg → Option Root} (hρ : ∀ r q, ρ r = some q ↔ RootOf F r q)
    {dom : Nat → Nat → Bool} (hdom : ∀ d n, dom d n = true → ¬ Avoids F (· = d) n) {reachable : Nat → Bool}
    {trivial willReturn : Nat → Bool} {headers : List Nat} {h : Hoist}
    (hf : findHoist F dom reachable trivial willReturn headers = some h)
    {sem : Sem V W} (law : Lawful sem ρ willReturn) {tracked : Root → Prop} {facts : Nat → Nat → Fact → Prop}
    (must : Must F ρ tracked facts) {s₀ : State V W} (holds : Holds sem ρ F tracked facts s₀) (fresh : Fresh s₀)
    (htr : ∀ b i op, At F b i op → PureCall willReturn op → ∀ o q, o ∈ op.operands → place ρ o = some q → tracked q) :
    ∃ F' op r, applyHoist F h = some F' ∧ At F h.call.1 h.call.2 op ∧ PureCall willReturn op ∧
      op.operands.getLast? = some (.reg r) ∧
      ∀ n o, Run sem ρ F n 0 s₀ o → ∃ o', Run sem ρ F' n 0 s₀ o' ∧ Out.Same r o o' := by
  classical
  obtain ⟨p, hP, hk, hcall, hmv, hnm, hel⟩ := findHoist_plan wf hρ hdom hf
  obtain ⟨F', hF', hres⟩ := apply_plan p hP hk hcall hmv hnm
  have hpure := eligible_pure hel
  have hat : At F p.cb p.ci p.op := .ofOps p.hcblk p.hop
  have calm : Calm sem p := by
    refine ⟨law.call p.op hpure, fun hm => ?_⟩
    obtain ⟨_, ⟨blk, hblk, haop⟩, hown, hops⟩ := p.hmoved hm
    obtain ⟨ty, hty⟩ := p.alloca _ _ _ (.ofOps hblk haop) hown
    exact law.alloca p.aop ty hty hops
  refine ⟨F', p.op, p.r, hF', by rw [hcall]; exact hat, hpure, by rw [List.getLast?_eq_getElem?]; exact p.hlast, ?_⟩
  intro n o hrun
  refine p.runs wf calm must holds fresh ?_ ?_ hres hrun ⟨⟨.start, ⟨rfl, rfl, fun _ _ => rfl, fun _ _ => rfl, ?_⟩, ?_⟩, ?_⟩
  · exact htr _ _ _ hat hpure (.reg p.r) _ (List.mem_of_getElem? p.hlast) p.hroot
  · intro j o q ho hq
    exact htr _ _ _ hat hpure o q (List.mem_of_getElem? ho) hq
  · intro m l hl; rw [fresh.1] at hl; simp at hl
  · intro m l hl; rw [fresh.1] at hl; simp at hl
  · intro h0; exact absurd h0 p.Lentry

/-- The table of roots can always be made, and is exact. -/
theorem C92_roots_exact {F : Fn} (wf : Wf F) : ∃ m, placeRoots F = some m ∧ ∀ r q, m.get r = some q ↔ RootOf F r q := by
  obtain ⟨m, hm⟩ := placeRoots_total wf
  exact ⟨m, hm, placeRoots_exact wf hm⟩

/-- A move keeps the roots of all registers. -/
theorem C92_roots_kept {F : Fn} (wf : Wf F) {dom : Nat → Nat → Bool} (hdom : ∀ d n, dom d n = true → ¬ Avoids F (· = d) n)
    {reachable : Nat → Bool} {trivial willReturn : Nat → Bool} {headers : List Nat} {h : Hoist}
    (hf : findHoist F dom reachable trivial willReturn headers = some h) {F' : Fn} (hF : applyHoist F h = some F')
    (r : Reg) (q : Root) : RootOf F' r q ↔ RootOf F r q := by
  classical
  obtain ⟨m, hm, hroots⟩ := C92_roots_exact wf
  obtain ⟨p, hP, hk, hcall, hmv, hnm, _⟩ := findHoist_plan wf (ρ := m.get) hroots hdom hf
  obtain ⟨F'', hF'', hres⟩ := apply_plan p hP hk hcall hmv hnm
  rw [hF] at hF''; cases hF''
  have := p.same_ops hres (length_apply hF)
  exact ⟨RootOf.mono fun op => (this op).mp, RootOf.mono fun op => (this op).mpr⟩

/-- The search for loops ends in every function. -/
theorem C92_loops_total {F : Fn} (wf : Wf F) (dom : Nat → Nat → Bool) (reachable : Nat → Bool) (header : Nat) :
    ∃ r, naturalLoop F dom reachable header = some r ∧ ∀ nl, r = some nl → header ∈ nl.blocks ∧
      nl.preheader ∉ nl.blocks ∧ (∃ ops, F[nl.preheader]? = some ⟨ops, .goto header⟩) ∧
      ∀ b c, c ∈ F.successors b → c ∈ nl.blocks → b ∈ nl.blocks ∨ (b = nl.preheader ∧ c = header) := by
  obtain ⟨r, hr⟩ := naturalLoop_total wf dom reachable header
  refine ⟨r, hr, ?_⟩
  rintro nl rfl
  exact naturalLoop_spec hr

/-- Moving ends and does not panic, whatever the function, its dominance, the loops and their order: every move
takes operations to blocks with smaller numbers.  Afterwards nothing is left to be moved. -/
theorem C92_hoisting_ends (dom : Fn → Nat → Nat → Bool) (reachable : Fn → Nat → Bool) (trivial willReturn : Nat → Bool)
    (orders : Fn → List Nat) (F : Fn) : ∃ n F', ∀ n', n ≤ n' →
      hoistAll dom reachable trivial willReturn orders n' F = some F' ∧
        findHoist F' (dom F') (reachable F') trivial willReturn (orders F') = none := by
  have mono : ∀ (n k : Nat) (F F' : Fn), hoistAll dom reachable trivial willReturn orders n F = some F' →
      hoistAll dom reachable trivial willReturn orders (n + k) F = some F' := by
    intro n
    induction n with
    | zero => intro k F F' h; simp [hoistAll] at h
    | succ n ih =>
      intro k F F' h
      rw [show n + 1 + k = n + k + 1 by omega]
      unfold hoistAll at h ⊢
      split
      · rename_i e; rw [e] at h; exact h
      · rename_i x e
        rw [e] at h
        simp only at h
        split at h
        · simp at h
        · rename_i G hG
          exact ih k G F' h
  obtain ⟨F', h1, h2⟩ := hoistAll_total dom reachable trivial willReturn orders (F.weight + 1) F (by omega)
  refine ⟨F.weight + 1, F', fun n' hn => ⟨?_, h2⟩⟩
  have := mono _ (n' - (F.weight + 1)) F F' h1
  rwa [show F.weight + 1 + (n' - (F.weight + 1)) = n' by omega] at this

/-- The functions that the pass goes through. -/
inductive Moves (dom : Fn → Nat → Nat → Bool) (reachable : Fn → Nat → Bool) (trivial willReturn : Nat → Bool)
    (orders : Fn → List Nat) (F : Fn) : Fn → Prop
  | start : Moves dom reachable trivial willReturn orders F F
  | move {G G' : Fn} {h : Hoist} : Moves dom reachable trivial willReturn orders F G →
    findHoist G (dom G) (reachable G) trivial willReturn (orders G) = some h → applyHoist G h = some G' →
    Moves dom reachable trivial willReturn orders F G'

/-- What is checked about a function. -/
def Checked (sem : Sem V W) (ρ : Reg → Option Root) (willReturn : Nat → Bool) (s₀ : State V W) (G : Fn) : Prop :=
  Wf G ∧ ∃ tracked facts, Must G ρ tracked facts ∧ Holds sem ρ G tracked facts s₀ ∧
    ∀ b i op, At G b i op → PureCall willReturn op → ∀ o q, o ∈ op.operands → place ρ o = some q → tracked q

/-- The same ending, up to the contents of some storage. -/
inductive Out.SameBut (R : Reg → Prop) : Out V W → Out V W → Prop
  | running : SameBut R .running .running
  | stopped {w} : SameBut R (.stopped w) (.stopped w)
  | left {tag w c c'} : (∀ q, (∀ r, R r → q ≠ .alloca r) → c q = c' q) → SameBut R (.left tag w c) (.left tag w c')

/-- The storage of results of calls without effects. -/
def ResultOf (willReturn : Nat → Bool) (F : Fn) (r : Reg) : Prop :=
  ∃ b i op, At F b i op ∧ PureCall willReturn op ∧ op.operands.getLast? = some (.reg r)

/-- The whole pass: if the functions it goes through are as the verifier demands, then every run of the function
has a run of the one that the pass gives, of the same length, that ends in the same way, in the same world, with
the same contents of all storage but that of results of calls without effects. -/
theorem C92_pass_keeps_runs_partial {F : Fn} {ρ : Reg → Option Root} (hρ : ∀ r q, ρ r = some q ↔ RootOf F r q)
    {dom : Fn → Nat → Nat → Bool} {reachable : Fn → Nat → Bool} {trivial willReturn : Nat → Bool} {orders : Fn → List Nat}
    {sem : Sem V W} (law : Lawful sem ρ willReturn) {s₀ : State V W} (fresh : Fresh s₀)
    (checked : ∀ G, Moves dom reachable trivial willReturn orders F G → Checked sem ρ willReturn s₀ G ∧
      ∀ d n, dom G d n = true → ¬ Avoids G (· = d) n) :
    ∃ k F', (∀ k', k ≤ k' → hoistAll dom reachable trivial willReturn orders k' F = some F') ∧
      (∀ r q, ρ r = some q ↔ RootOf F' r q) ∧
      ∀ n o, Run sem ρ F n 0 s₀ o → ∃ o', Run sem ρ F' n 0 s₀ o' ∧ Out.SameBut (ResultOf willReturn F) o o' := by
  obtain ⟨k, F', hk⟩ := C92_hoisting_ends dom reachable trivial willReturn orders F
  refine ⟨k, F', fun k' h => (hk k' h).1, ?_⟩
  have hall := (hk k (Nat.le_refl _)).1
  -- every function on the way
  have main : ∀ (k : Nat) (G : Fn), Moves dom reachable trivial willReturn orders F G →
      (∀ r q, ρ r = some q ↔ RootOf G r q) → (∀ r, ResultOf willReturn G r → ResultOf willReturn F r) →
      hoistAll dom reachable trivial willReturn orders k G = some F' →
      (∀ r q, ρ r = some q ↔ RootOf F' r q) ∧
      ∀ n o, Run sem ρ G n 0 s₀ o → ∃ o', Run sem ρ F' n 0 s₀ o' ∧ Out.SameBut (ResultOf willReturn F) o o' := by
    intro k
    induction k with
    | zero => intro G _ _ _ h; simp [hoistAll] at h
    | succ k ih =>
      intro G hG hroots hres h
      unfold hoistAll at h
      split at h
      · cases h
        refine ⟨hroots, fun n o hr => ⟨o, hr, ?_⟩⟩
        cases o with
        | running => exact .running
        | stopped w => exact .stopped
        | left tag w c => exact .left fun _ _ => rfl
      · rename_i x hf
        obtain ⟨⟨wf, tracked, facts, must, holds, htr⟩, hdom⟩ := checked G hG
        obtain ⟨G', op, r, hG', hat, hpure, hlast, hruns⟩ :=
          C92_hoist_keeps_runs_partial wf hroots hdom hf law must holds fresh htr
        rw [hG'] at h
        simp only at h
        have hroots' : ∀ r q, ρ r = some q ↔ RootOf G' r q := fun r q =>
          (hroots r q).trans (C92_roots_kept wf hdom hf hG' r q).symm
        have hres' : ∀ r, ResultOf willReturn G' r → ResultOf willReturn F r := by
          classical
          obtain ⟨p, hP, hk, hcall, hmv, hnm, _⟩ := findHoist_plan wf hroots hdom hf
          obtain ⟨F'', hF'', hr⟩ := apply_plan p hP hk hcall hmv hnm
          rw [hG'] at hF''; cases hF''
          rintro r ⟨b, i, op, ⟨blk, hb, hi⟩, h2, h3⟩
          refine hres r ?_
          by_cases hlt : i < blk.ops.length
          · obtain ⟨⟨b', i'⟩, hs⟩ := (p.same_ops hr (length_apply hG') op).mp ⟨(b, i), mem_sites.mpr ⟨blk, hb, by
              unfold Block.all at hi; rwa [List.getElem?_append_left hlt] at hi⟩⟩
            exact ⟨b', i', op, At.ofSites hs, h2, h3⟩
          · have hlt' : b < G.length := by rw [← length_apply hG']; exact (List.getElem?_eq_some_iff.mp hb).1
            obtain ⟨ops', h1, _⟩ := hr b G[b] (List.getElem?_eq_getElem hlt')
            rw [hb] at h1
            have hterm : blk.term = G[b].term := by cases h1; rfl
            unfold Block.all at hi
            rw [List.getElem?_append_right (by omega), hterm] at hi
            exact ⟨b, G[b].ops.length + (i - blk.ops.length), op, ⟨G[b], List.getElem?_eq_getElem hlt', by
              unfold Block.all; rw [List.getElem?_append_right (by omega)]; simpa using hi⟩, h2, h3⟩
        obtain ⟨g1, g2⟩ := ih G' (.move hG hf hG') hroots' hres' h
        refine ⟨g1, fun n o hr => ?_⟩
        obtain ⟨o₁, hr₁, hs₁⟩ := hruns n o hr
        obtain ⟨o₂, hr₂, hs₂⟩ := g2 n o₁ hr₁
        refine ⟨o₂, hr₂, ?_⟩
        cases hs₁ with
        | running => exact hs₂
        | stopped => exact hs₂
        | left hc =>
          cases hs₂ with
          | left hc' =>
            refine .left fun q hq => (hc q (hq r (hres r ⟨_, _, op, hat, hpure, hlast⟩))).trans (hc' q hq)
  exact main k F .start hρ (fun _ h => h) hall

/-- The dominance that C26 computes on the edges of a function is what the theorems above ask for. -/
theorem C92_dominance {F : Fn} (wf : Wf F) (hne : 0 < F.length) :
    ∃ d, Dominance.compute (F.map (·.term.successors)) 0 = some d ∧
      ∀ a n, a < F.length → n < F.length → d.dominates a n = some true → ¬ Avoids F (· = a) n := by
  have edge : ∀ {b c : Nat}, Graph.Edge (F.map (·.term.successors)) b c ↔ c ∈ F.successors b := by
    intro b c
    unfold Graph.Edge Fn.successors
    rw [List.getElem?_map]
    cases F[b]? <;> simp
  obtain ⟨d, h1, h2⟩ := Dominance.C26_dominance_exact (F.map (·.term.successors))
    (fun u v h => by rw [List.length_map]; exact wf.targets u v (edge.mp h)) 0 (by simpa using hne)
  refine ⟨d, h1, ?_⟩
  intro a n ha hn hd hav
  obtain ⟨r, hr, hiff⟩ := h2 a n (by simpa using ha) (by simpa using hn)
  rw [hd] at hr
  cases hr
  obtain ⟨-, hdom⟩ := hiff.mp rfl
  have key : ∀ {n}, Avoids F (· = a) n → ∃ S, Dominance.Walk (F.map (·.term.successors)) 0 n S ∧ a ∉ S := by
    intro n h
    induction h with
    | entry h0 => exact ⟨_, .start, by simpa using fun e => h0 e.symm⟩
    | step _ hc hb ih =>
      obtain ⟨S, hS, ha⟩ := ih
      refine ⟨_, .step hS (edge.mpr hc), ?_⟩
      simp only [List.mem_cons, not_or]
      exact ⟨fun e => hb e.symm, ha⟩
  obtain ⟨S, hS, hnot⟩ := key hav
  have := hdom _ (Dominance.walk_isPath hS)
  simp at this
  exact hnot this

/-! ## An example: a call in a loop whose argument does not change -/

namespace Example

/-- Storage 0 is filled; the loop fills storage 2 by a call that reads storage 0, and copies it to parameter 1. -/
def callInfo : CallInfo := ⟨[false], true, true, 1, []⟩

def call : Op := ⟨.call callInfo, 0, [.func 7, .reg 0, .reg 2], none⟩

def F : Fn :=
  [⟨[⟨.alloca 0, 0, [], some 0⟩, ⟨.store, 0, [.other 0, .reg 0], none⟩], .goto 1⟩,
   ⟨[], .condBr (.param 0) 2 3⟩,
   ⟨[⟨.alloca 1, 0, [], some 2⟩, call, ⟨.memcpy, 0, [.reg 2, .param 1], none⟩], .goto 1⟩,
   ⟨[], .leave 0⟩]

def dom (d n : Nat) : Bool := d == n || d == 0 || (d == 1 && (n == 2 || n == 3))

def afterwards : Fn :=
  [⟨[⟨.alloca 0, 0, [], some 0⟩, ⟨.store, 0, [.other 0, .reg 0], none⟩, ⟨.alloca 1, 0, [], some 2⟩, call], .goto 1⟩,
   ⟨[], .condBr (.param 0) 2 3⟩,
   ⟨[⟨.memcpy, 0, [.reg 2, .param 1], none⟩], .goto 1⟩,
   ⟨[], .leave 0⟩]

/-- The call and its storage are moved. -/
example : findHoist F dom (fun _ => true) (fun _ => true) (· == 7) [1] = some ⟨(2, 1), some (2, 0), 0, 2⟩ ∧
    applyHoist F ⟨(2, 1), some (2, 0), 0, 2⟩ = some afterwards := by decide +kernel

/-- Not if the loop writes to the argument. -/
example : findHoist (F.modify 2 (⟨.store, 0, [.other 1, .reg 0], none⟩ :: ·)) dom (fun _ => true) (fun _ => true) (· == 7)
    [1] = none := by decide +kernel

/-- Not if the result is used after the loop. -/
example : findHoist (F.modify 3 (⟨.load, 0, [.reg 2], some 9⟩ :: ·)) dom (fun _ => true) (fun _ => true) (· == 7)
    [1] = none := by decide +kernel

/-- Before a point of the stack to which the loop returns. -/
example : findHoist ((F.modify 0 (· ++ [⟨.stackSave, 0, [], some 8⟩])).modify 2 (· ++ [⟨.stackRestore, 0, [.reg 8], none⟩]))
    dom (fun _ => true) (fun _ => true) (· == 7) [1] = some ⟨(2, 1), some (2, 0), 0, 2⟩ := by decide +kernel

theorem at_iff {b i : Nat} {op : Op} : At F b i op ↔ ((b, i), op) ∈
    [((0, 0), (⟨.alloca 0, 0, [], some 0⟩ : Op)), ((0, 1), ⟨.store, 0, [.other 0, .reg 0], none⟩),
     ((1, 0), ⟨.branch, 0, [.param 0], none⟩), ((2, 0), ⟨.alloca 1, 0, [], some 2⟩), ((2, 1), call),
     ((2, 2), ⟨.memcpy, 0, [.reg 2, .param 1], none⟩)] := by
  unfold At F
  constructor
  · rintro ⟨blk, h1, h2⟩
    match b, h1 with
    | 0, h1 =>
      cases h1
      match i, h2 with
      | 0, h2 => cases h2; simp
      | 1, h2 => cases h2; simp
      | i + 2, h2 => simp [Block.all, Term.op] at h2
    | 1, h1 =>
      cases h1
      match i, h2 with
      | 0, h2 => cases h2; simp
      | i + 1, h2 => simp [Block.all, Term.op] at h2
    | 2, h1 =>
      cases h1
      match i, h2 with
      | 0, h2 => cases h2; simp
      | 1, h2 => cases h2; simp
      | 2, h2 => cases h2; simp
      | i + 3, h2 => simp [Block.all, Term.op] at h2
    | 3, h1 =>
      cases h1
      simp [Block.all, Term.op] at h2
    | b + 4, h1 => simp at h1
  · intro h
    simp only [List.mem_cons, Prod.mk.injEq, List.not_mem_nil, or_false] at h
    rcases h with ⟨⟨rfl, rfl⟩, rfl⟩ | ⟨⟨rfl, rfl⟩, rfl⟩ | ⟨⟨rfl, rfl⟩, rfl⟩ | ⟨⟨rfl, rfl⟩, rfl⟩ | ⟨⟨rfl, rfl⟩, rfl⟩ |
      ⟨⟨rfl, rfl⟩, rfl⟩ <;> exact ⟨_, rfl, rfl⟩

theorem not_avoids {n : Nat} : ¬ Avoids F (· = 0) n := by
  intro h
  induction h with
  | entry h => exact h rfl
  | step _ _ _ ih => exact ih

theorem successors_iff {b c : Nat} : c ∈ F.successors b ↔ (b, c) ∈ [(0, 1), (1, 2), (1, 3), (2, 1)] := by
  unfold Fn.successors F
  match b with
  | 0 => simp [Term.successors]
  | 1 => simp [Term.successors]
  | 2 => simp [Term.successors]
  | 3 => simp [Term.successors]
  | b + 4 => simp

theorem wf : Wf F where
  single := by
    intro b i b' i' op op' x h h' hr hr'
    rw [at_iff] at h h'
    simp only [List.mem_cons, Prod.mk.injEq, List.not_mem_nil, or_false] at h h'
    rcases h with ⟨⟨rfl, rfl⟩, rfl⟩ | ⟨⟨rfl, rfl⟩, rfl⟩ | ⟨⟨rfl, rfl⟩, rfl⟩ | ⟨⟨rfl, rfl⟩, rfl⟩ | ⟨⟨rfl, rfl⟩, rfl⟩ |
      ⟨⟨rfl, rfl⟩, rfl⟩ <;> cases hr <;>
    rcases h' with ⟨⟨rfl, rfl⟩, rfl⟩ | ⟨⟨rfl, rfl⟩, rfl⟩ | ⟨⟨rfl, rfl⟩, rfl⟩ | ⟨⟨rfl, rfl⟩, rfl⟩ | ⟨⟨rfl, rfl⟩, rfl⟩ |
      ⟨⟨rfl, rfl⟩, rfl⟩ <;> cases hr' <;> exact ⟨rfl, rfl⟩
  terms := by
    intro b blk op hb ho
    match b, hb with
    | 0, hb => cases hb; simp [Term.op] at ho
    | 1, hb => cases hb; cases ho; simp [ownRoot]
    | 2, hb => cases hb; simp [Term.op] at ho
    | 3, hb => cases hb; simp [Term.op] at ho
    | b + 4, hb => simp [F] at hb
  calls := by
    intro b i op info h hk
    rw [at_iff] at h
    simp only [List.mem_cons, Prod.mk.injEq, List.not_mem_nil, or_false] at h
    rcases h with ⟨_, rfl⟩ | ⟨_, rfl⟩ | ⟨_, rfl⟩ | ⟨_, rfl⟩ | ⟨_, rfl⟩ | ⟨_, rfl⟩ <;> first | rfl | cases hk
  restores := by
    intro b i op h hk
    rw [at_iff] at h
    simp only [List.mem_cons, Prod.mk.injEq, List.not_mem_nil, or_false] at h
    rcases h with ⟨_, rfl⟩ | ⟨_, rfl⟩ | ⟨_, rfl⟩ | ⟨_, rfl⟩ | ⟨_, rfl⟩ | ⟨_, rfl⟩ <;> cases hk
  defined := by
    intro b i op x h hx
    rw [at_iff] at h
    simp only [List.mem_cons, Prod.mk.injEq, List.not_mem_nil, or_false] at h
    rcases h with ⟨⟨rfl, rfl⟩, rfl⟩ | ⟨⟨rfl, rfl⟩, rfl⟩ | ⟨⟨rfl, rfl⟩, rfl⟩ | ⟨⟨rfl, rfl⟩, rfl⟩ | ⟨⟨rfl, rfl⟩, rfl⟩ |
      ⟨⟨rfl, rfl⟩, rfl⟩ <;> simp [call] at hx
    · subst hx
      exact ⟨0, 0, _, at_iff.mpr List.mem_cons_self, rfl, .inl ⟨rfl, by omega⟩⟩
    · rcases hx with rfl | rfl
      · exact ⟨0, 0, _, at_iff.mpr List.mem_cons_self, rfl, .inr ⟨by omega, not_avoids⟩⟩
      · exact ⟨2, 0, ⟨.alloca 1, 0, [], some 2⟩, at_iff.mpr (by simp), rfl, .inl ⟨rfl, by omega⟩⟩
    · subst hx
      exact ⟨2, 0, ⟨.alloca 1, 0, [], some 2⟩, at_iff.mpr (by simp), rfl, .inl ⟨rfl, by omega⟩⟩
  nested := by
    intro b i j j' b' save op op' m m' _ _ _ h hk
    rw [at_iff] at h
    simp only [List.mem_cons, Prod.mk.injEq, List.not_mem_nil, or_false] at h
    rcases h with ⟨_, rfl⟩ | ⟨_, rfl⟩ | ⟨_, rfl⟩ | ⟨_, rfl⟩ | ⟨_, rfl⟩ | ⟨_, rfl⟩ <;> cases hk
  reachable := by
    have h0 : Avoids F (fun _ => False) 0 := .entry not_false
    have h1 := h0.step (c := 1) (successors_iff.mpr (by simp)) not_false
    intro b hb
    match b, hb with
    | 0, _ => exact h0
    | 1, _ => exact h1
    | 2, _ => exact h1.step (successors_iff.mpr (by simp)) not_false
    | 3, _ => exact h1.step (successors_iff.mpr (by simp)) not_false
    | b + 4, hb => simp [F] at hb
  targets := by
    intro b c h
    rw [successors_iff] at h
    simp only [List.mem_cons, Prod.mk.injEq, List.not_mem_nil, or_false] at h
    simp only [F, List.length_cons, List.length_nil]
    omega

def ρ (r : Reg) : Option Root := if r = 0 then some (.alloca 0) else if r = 2 then some (.alloca 2) else none

theorem roots (r : Reg) (q : Root) : ρ r = some q ↔ RootOf F r q := by
  have h : placeRoots F = some [(2, .alloca 2), (0, .alloca 0)] := by decide +kernel
  rw [← placeRoots_exact wf h]
  unfold ρ Roots.get
  by_cases h0 : r = 0
  · subst h0; simp
  · by_cases h2 : r = 2
    · subst h2; simp
    · simp [h0, h2, Ne.symm h0, Ne.symm h2]

/-- Every operation gives the sum of what it reads; copies count down the world, and the loop ends at 0. -/
def sem : Sem Nat Nat where
  op := fun op args w => .ok (some 0)
    (List.replicate op.operands.length (some ((args.map fun a => (a.2.getD 0 : Nat)).sum + 1)))
    (if op.kind = .memcpy then w - 1 else w)
  first := fun _ _ w => decide (w ≠ 0)

def s₀ : State Nat Nat := ⟨fun _ => none, fun _ => none, fun _ => false, fun q =>
  match q with
  | .param _ => some 5
  | _ => none, 3⟩

theorem fresh : Fresh s₀ := ⟨fun _ => rfl, fun _ => rfl, fun _ => rfl, fun _ => rfl⟩

theorem law : Lawful sem ρ (· == 7) where
  call := by
    rintro op ⟨info, f, hk, _, _, _, hh, _⟩ args _ _
    have hpos : 0 < op.operands.length := by
      cases h : op.operands with
      | nil => simp [h] at hh
      | cons a l => simp
    refine ⟨(args.map fun a => (a.2.getD 0 : Nat)).sum + 1, fun w => ⟨some 0, List.replicate op.operands.length
      (some ((args.map fun a => (a.2.getD 0 : Nat)).sum + 1)), by simp [sem, hk], ?_⟩⟩
    rw [List.getElem?_replicate, if_pos (by omega)]; rfl
  alloca := by
    intro op ty hk hops w
    exact ⟨_, _, by simp [sem, hk]; exact ⟨rfl, rfl⟩⟩

def tracked (q : Root) : Prop := q = .alloca 0 ∨ q = .alloca 2

def facts (b i : Nat) : Fact → Prop
  | .live r => (r = 0 ∧ (1 ≤ b ∨ 1 ≤ i)) ∨ (r = 2 ∧ b = 2 ∧ 1 ≤ i)
  | .init q => (q = .alloca 0 ∧ (1 ≤ b ∨ 2 ≤ i)) ∨ (q = .alloca 2 ∧ b = 2 ∧ 2 ≤ i)

theorem must : Must F ρ tracked facts where
  reads := by
    intro b i p op o q h ho hb hc hp ht
    rw [at_iff] at h
    simp only [List.mem_cons, Prod.mk.injEq, List.not_mem_nil, or_false] at h
    rcases h with ⟨⟨rfl, rfl⟩, rfl⟩ | ⟨⟨rfl, rfl⟩, rfl⟩ | ⟨⟨rfl, rfl⟩, rfl⟩ | ⟨⟨rfl, rfl⟩, rfl⟩ | ⟨⟨rfl, rfl⟩, rfl⟩ |
      ⟨⟨rfl, rfl⟩, rfl⟩
    · simp at ho
    · match p, ho with
      | 0, ho => cases ho; simp [place] at hp
      | 1, ho => simp [changes] at hc
      | p + 2, ho => simp at ho
    · match p, ho with
      | 0, ho => cases ho; simp only [place, Option.some.injEq] at hp; subst hp; simp [tracked] at ht
      | p + 1, ho => simp at ho
    · simp at ho
    · match p, ho with
      | 0, ho => cases ho; simp [place] at hp
      | 1, ho => cases ho; simp [place, ρ] at hp; subst hp; simp [facts]
      | 2, ho => simp [changes, call] at hc
      | p + 3, ho => simp [call] at ho
    · match p, ho with
      | 0, ho => cases ho; simp [place, ρ] at hp; subst hp; simp [facts]
      | 1, ho => simp [changes] at hc
      | p + 2, ho => simp at ho
  writes := by
    intro b i p op o r h ho hc hp
    rw [at_iff] at h
    simp only [List.mem_cons, Prod.mk.injEq, List.not_mem_nil, or_false] at h
    rcases h with ⟨⟨rfl, rfl⟩, rfl⟩ | ⟨⟨rfl, rfl⟩, rfl⟩ | ⟨⟨rfl, rfl⟩, rfl⟩ | ⟨⟨rfl, rfl⟩, rfl⟩ | ⟨⟨rfl, rfl⟩, rfl⟩ |
      ⟨⟨rfl, rfl⟩, rfl⟩
    · simp at ho
    · match p, ho with
      | 0, ho => simp [changes] at hc
      | 1, ho => cases ho; simp [place, ρ] at hp; subst hp; simp [facts]
      | p + 2, ho => simp at ho
    · simp [changes] at hc
    · simp at ho
    · match p, ho with
      | 0, ho => simp [changes, call, callInfo] at hc
      | 1, ho => simp [changes, call, callInfo] at hc
      | 2, ho => cases ho; simp [place, ρ] at hp; subst hp; simp [facts]
      | p + 3, ho => simp [call] at ho
    · match p, ho with
      | 0, ho => simp [changes] at hc
      | 1, ho => cases ho; simp [place] at hp
      | p + 2, ho => simp at ho
  back := by
    intro b i blk op φ hb hi hf
    match b, hb with
    | 0, hb =>
      cases hb
      match i, hi with
      | 0, hi =>
        cases hi
        cases φ with
        | live r => simp [facts] at hf; subst hf; exact .inl rfl
        | init q => simp [facts] at hf
      | 1, hi =>
        cases hi
        cases φ with
        | live r => simp [facts] at hf; subst hf; exact .inr ⟨id, by simp [facts]⟩
        | init q => simp [facts] at hf; subst hf; exact .inl (.inl ⟨1, .reg 0, rfl, rfl, rfl⟩)
      | i + 2, hi => simp at hi
    | 1, hb => cases hb; simp at hi
    | 2, hb =>
      cases hb
      match i, hi with
      | 0, hi =>
        cases hi
        cases φ with
        | live r =>
          simp [facts] at hf
          rcases hf with rfl | rfl
          · exact .inr ⟨id, by simp [facts]⟩
          · exact .inl rfl
        | init q => simp [facts] at hf; subst hf; exact .inr ⟨by simp [Ends, ownRoot], by simp [facts]⟩
      | 1, hi =>
        cases hi
        cases φ with
        | live r =>
          simp [facts] at hf
          rcases hf with rfl | rfl
          · exact .inr ⟨id, by simp [facts]⟩
          · exact .inr ⟨id, by simp [facts]⟩
        | init q =>
          simp [facts] at hf
          rcases hf with rfl | rfl
          · exact .inr ⟨by simp [Ends, ownRoot, call], by simp [facts]⟩
          · exact .inl (.inl ⟨2, .reg 2, rfl, rfl, rfl⟩)
      | 2, hi =>
        cases hi
        cases φ with
        | live r =>
          simp [facts] at hf
          rcases hf with rfl | rfl
          · exact .inr ⟨id, by simp [facts]⟩
          · exact .inr ⟨id, by simp [facts]⟩
        | init q =>
          simp [facts] at hf
          rcases hf with rfl | rfl
          · exact .inr ⟨by simp [Ends, ownRoot], by simp [facts]⟩
          · exact .inr ⟨by simp [Ends, ownRoot], by simp [facts]⟩
      | i + 3, hi => simp at hi
    | 3, hb => cases hb; simp at hi
    | b + 4, hb => simp [F] at hb
  edge := by
    intro b c blk φ hb hc hf
    right
    rw [successors_iff] at hc
    simp only [List.mem_cons, Prod.mk.injEq, List.not_mem_nil, or_false] at hc
    rcases hc with ⟨rfl, rfl⟩ | ⟨rfl, rfl⟩ | ⟨rfl, rfl⟩ | ⟨rfl, rfl⟩ <;> cases hb <;> cases φ <;> simp [facts] at hf ⊢ <;>
      simp [hf]

/-- Where nothing goes back to a saved point of the stack and nothing takes contents away, facts that hold on all
paths hold in all runs. -/
theorem holds : Holds sem ρ F tracked facts s₀ := by
  have hsome : ∀ (op : Op) (args : List (Option Nat × Option Nat)) (w : Nat) (c : Root → Option Nat) v l w' q,
      sem.op op args w = .ok v l w' → (c q ≠ none ∨ ∃ (i : Nat) (o : Operand), op.operands[i]? = some o ∧ changes op i = true ∧
        place ρ o = some q) → after ρ op l c q ≠ none := by
    intro op args w c v l w' q hs h
    simp only [sem, Res.ok.injEq] at hs
    obtain ⟨-, rfl, -⟩ := hs
    unfold after
    have key : ∀ (is : List Nat) (c : Root → Option Nat), (∀ i ∈ is, i < op.operands.length) →
        (c q ≠ none ∨ ∃ i ∈ is, ∃ (o : Operand), op.operands[i]? = some o ∧ changes op i = true ∧ place ρ o = some q) →
        is.foldl (fun c i =>
          match (op.operands[i]?).bind (place ρ) with
          | some q => if changes op i then upd c q (((List.replicate op.operands.length
              (some ((args.map fun a => (a.2.getD 0 : Nat)).sum + 1)))[i]?).getD none) else c
          | none => c) c q ≠ none := by
      intro is
      induction is with
      | nil => intro c _ h; simpa using h
      | cons i is ih =>
        intro c hlt h
        rw [List.foldl_cons]
        apply ih _ (fun j hj => hlt j (List.mem_cons_of_mem _ hj))
        have hi := hlt i List.mem_cons_self
        rcases h with h | ⟨j, hj, o, h1, h2, h3⟩
        · left
          cases (op.operands[i]?).bind (place ρ) with
          | none => exact h
          | some q' =>
            simp only
            split
            · simp only [upd]; split
              · rw [List.getElem?_replicate, if_pos hi]; simp
              · exact h
            · exact h
        · rcases List.mem_cons.mp hj with rfl | hj
          · left
            simp only [h1, Option.bind_some, h3, h2, if_true, upd]
            rw [List.getElem?_replicate, if_pos hi]; simp
          · exact .inr ⟨j, hj, o, h1, h2, h3⟩
    refine key _ c (fun i hi => List.mem_range.mp hi) ?_
    rcases h with h | ⟨i, o, h1, h2, h3⟩
    · exact .inl h
    · exact .inr ⟨i, List.mem_range.mpr (List.getElem?_eq_some_iff.mp h1).1, o, h1, h2, h3⟩
  intro b i s hr
  suffices h : ∀ φ, facts b i φ → match φ with
      | .live r => s.live r = true
      | .init q => s.cells q ≠ none from ⟨fun q _ hq => h (.init q) hq, fun r hr => h (.live r) hr⟩
  induction hr with
  | start => intro φ hφ; cases φ <;> simp [facts] at hφ
  | @op b i s t blk o _ hb ho he ih =>
    have hat : At F b i o := .ofOps hb ho
    intro φ hφ
    have hkind : o.kind ≠ .stackRestore ∧ o.kind ≠ .stackSave := by
      rw [at_iff] at hat
      simp only [List.mem_cons, Prod.mk.injEq, List.not_mem_nil, or_false] at hat
      rcases hat with ⟨_, rfl⟩ | ⟨_, rfl⟩ | ⟨_, rfl⟩ | ⟨_, rfl⟩ | ⟨_, rfl⟩ | ⟨_, rfl⟩ <;> simp [call]
    have hback := must.back hb ho hφ
    cases he with
    | save h => exact absurd h hkind.2
    | restore h => exact absurd h hkind.1
    | @op v l w _ _ _ hs =>
      have hv : v = some 0 := by simp only [sem, Res.ok.injEq] at hs; exact hs.1.symm
      cases φ with
      | live r =>
        have hor : ownRoot o = some (.alloca r) ∨ s.live r = true := by
          rcases hback with h | ⟨_, h⟩
          · exact .inl h
          · exact .inr (ih _ h)
        simp only [State.define]
        cases hres : o.result with
        | none => simp [ownRoot, hres] at hor; simpa using hor
        | some x =>
          simp only
          cases hown : ownRoot o with
          | none => simp [hown] at hor; simpa using hor
          | some q =>
            cases q with
            | alloca y =>
              simp only [upd]
              split
              · rfl
              · rename_i hne
                rcases hor with h | h
                · rw [hown] at h; cases h; exact absurd rfl hne
                · exact h
            | param _ => simp [hown] at hor; simpa using hor
            | dict _ => simp [hown] at hor; simpa using hor
      | init q =>
        have hc : (∃ (i : Nat) (o' : Operand), o.operands[i]? = some o' ∧ changes o i = true ∧ place ρ o' = some q) ∨
            (ownRoot o = some q ∧ ∀ ty, o.kind ≠ .alloca ty) ∨ (¬ Ends o (.init q) ∧ s.cells q ≠ none) := by
          rcases hback with (h | h) | ⟨h1, h⟩
          · exact .inl h
          · exact .inr (.inl h)
          · exact .inr (.inr ⟨h1, ih _ h⟩)
        have hsto : ownRoot o ≠ some q → after ρ o l s.cells q ≠ none := by
          intro hne
          refine hsome o _ _ s.cells _ _ _ q hs ?_
          rcases hc with h | ⟨h, _⟩ | ⟨_, h⟩
          · exact .inr h
          · exact absurd h hne
          · exact .inl h
        simp only [State.define]
        cases hres : o.result with
        | none => exact hsto (by simp [ownRoot, hres])
        | some x =>
          simp only
          cases hown : ownRoot o with
          | none => exact hsto (by simp [hown])
          | some q' =>
            simp only [upd]
            split
            · rename_i e
              subst e
              cases hk : o.kind with
              | alloca ty =>
                exfalso
                rcases hc with ⟨j, o', h1, h2, _⟩ | ⟨_, h⟩ | ⟨h, _⟩
                · simp [changes, hk] at h2
                · exact h ty hk
                · exact h ⟨hown, ty, hk⟩
              | _ => simp [hv]
            · rename_i hne
              exact hsto (by rw [hown]; simpa using fun e => hne e.symm)
  | @edge b s t blk c hb _ he ht ih =>
    intro φ hφ
    have hmem : c ∈ F.successors b := by
      unfold Fn.successors
      rw [hb]
      simp only
      cases hterm : blk.term with
      | leave tag => simp [Term.target, hterm] at ht
      | goto x => simp [Term.target, hterm] at ht; simp [Term.successors, ht]
      | condBr a x y =>
        simp only [Term.target, hterm, Option.some.injEq] at ht
        simp only [Term.successors, List.mem_cons, List.not_mem_nil, or_false]
        split at ht <;> simp [ht]
      | invoke o x y =>
        simp only [Term.target, hterm, Option.some.injEq] at ht
        simp only [Term.successors, List.mem_cons, List.not_mem_nil, or_false]
        split at ht <;> simp [ht]
      | yield o x => simp [Term.target, hterm] at ht; simp [Term.successors, ht]
    have hs : t.live = s.live ∧ t.cells = s.cells := by
      match b, hb with
      | 0, hb => cases hb; cases he; exact ⟨rfl, rfl⟩
      | 1, hb =>
        cases hb
        cases he with
        | cons h h' =>
          cases h'
          cases h with
          | op _ _ _ hs =>
            refine ⟨rfl, ?_⟩
            funext q
            simp only [State.define]
            refine after_eq _ _ _ _ _ ?_
            intro i o _ hc
            simp [changes] at hc
          | save h => simp at h
          | restore h => simp at h
      | 2, hb => cases hb; cases he; exact ⟨rfl, rfl⟩
      | 3, hb => cases hb; simp [Term.target] at ht
      | b + 4, hb => simp [F] at hb
    have hf : facts b blk.ops.length φ := by
      rcases must.edge hb hmem hφ with ⟨op, hop, hg⟩ | h
      · exfalso
        match b, hb with
        | 0, hb => cases hb; simp [Term.op] at hop
        | 1, hb =>
          cases hb; cases hop
          cases φ with
          | live r => simp [Gives, ownRoot] at hg
          | init q => simp [Gives, ownRoot, changes] at hg
        | 2, hb => cases hb; simp [Term.op] at hop
        | 3, hb => cases hb; simp [Term.op] at hop
        | b + 4, hb => simp [F] at hb
      · exact h
    have := ih φ hf
    cases φ with
    | live r => simp only at this ⊢; rw [hs.1]; exact this
    | init q => simp only at this ⊢; rw [hs.2]; exact this

/-- All that the theorem asks for holds here. -/
example : ∃ F' op r, applyHoist F ⟨(2, 1), some (2, 0), 0, 2⟩ = some F' ∧ At F 2 1 op ∧ PureCall (· == 7) op ∧
    op.operands.getLast? = some (.reg r) ∧
    ∀ n o, Run sem ρ F n 0 s₀ o → ∃ o', Run sem ρ F' n 0 s₀ o' ∧ Out.Same r o o' := by
  refine C92_hoist_keeps_runs_partial wf roots (dom := dom) ?_ (reachable := fun _ => true) (trivial := fun _ => true)
    (headers := [1]) (by decide +kernel) law must holds fresh ?_
  · intro d n hd hav
    simp only [dom, Bool.or_eq_true, Bool.and_eq_true, beq_iff_eq] at hd
    rcases hd with (rfl | rfl) | ⟨rfl, h⟩
    · exact hav.good rfl
    · exact not_avoids hav
    · have : ∀ {n}, Avoids F (· = 1) n → n = 0 := by
        intro n h
        induction h with
        | entry => rfl
        | step _ hc hb ih =>
          subst ih
          rw [successors_iff] at hc
          simp at hc
          exact absurd hc hb
      have := this hav
      omega
  · intro b i op hat hp o q ho hq
    obtain ⟨info, f, hk, _⟩ := hp
    rw [at_iff] at hat
    simp only [List.mem_cons, Prod.mk.injEq, List.not_mem_nil, or_false] at hat
    rcases hat with ⟨_, rfl⟩ | ⟨_, rfl⟩ | ⟨_, rfl⟩ | ⟨_, rfl⟩ | ⟨_, rfl⟩ | ⟨_, rfl⟩ <;> try (exact absurd hk (by simp))
    simp only [call, List.mem_cons, List.not_mem_nil, or_false] at ho
    rcases ho with rfl | rfl | rfl
    · simp [place] at hq
    · simp [place, ρ] at hq; exact .inl hq.symm
    · simp [place, ρ] at hq; exact .inr hq.symm

end Example

end Ferlium.Licm
