import Verif.Model.BranchForward
import Verif.Proofs.Peephole

/-! Lemmas on forwarding of stored booleans. -/
namespace Ferlium.Mir

variable {V σ : Type} {W : World V σ} {f g : Body} {s s' : St V σ}

/-- A simulation in which the second side may stand still, for a bounded number of steps. -/
theorem sim_indexed (R : Nat → Config V σ → Config V σ → Prop)
    (hobs : ∀ n c c', R n c c' → c.world? = c'.world?)
    (hdone : ∀ n x c', R n (.done x) c' → c' = .done x)
    (hdone' : ∀ n x c, R n c (.done x) → c = .done x)
    (hstep : ∀ n c c', R n c c' → (∃ m, R m (step W f c) (step W g c')) ∨ ∃ m, m < n ∧ R m (step W f c) c') {w : σ}
    (h0 : ∃ n, R n (start f w) (start g w)) : SameBehaviour W f g w := by
  refine sim_both (fun c c' => ∃ n, R n c c') (fun c c' ⟨n, h⟩ => hobs n c c' h) (fun x c' ⟨n, h⟩ => hdone n x c' h)
    (fun x c ⟨n, h⟩ => hdone' n x c h) ?_ ?_ h0
  · rintro c c' ⟨n, h⟩
    rcases hstep n c c' h with ⟨m, h⟩ | ⟨m, _, h⟩
    · exact ⟨1, m, h⟩
    · exact ⟨0, m, h⟩
  · rintro c c' ⟨n, h⟩
    induction n using Nat.strong_induction_on generalizing c with
    | _ n ih =>
      rcases hstep n c c' h with ⟨m, h⟩ | ⟨m, hm, h⟩
      · exact ⟨1, m, h⟩
      · obtain ⟨k, hk⟩ := ih m hm _ h
        exact ⟨k + 1, hk⟩

/-! ### Registers an operation does not mention -/

theorem exposeOne_frame {v : Value} {q : Nat} (h : v ≠ .register q) : (exposeOne W s v).env q = s.env q := by
  unfold exposeOne
  split
  · rename_i r
    split
    · exact Function.update_of_ne (fun hq : q = r => h (hq ▸ rfl)) _ _
    · rfl
  · rfl

theorem exposeFrom_frame {direct : Nat → Bool} {q : Nat} (vs : List Value) : ∀ (i : Nat) (s : St V σ),
    Value.register q ∉ vs → (exposeFrom W direct i vs s).env q = s.env q := by
  induction vs with
  | nil => intro i s _; rfl
  | cons v vs ih =>
    intro i s h
    simp only [List.mem_cons, not_or] at h
    unfold exposeFrom
    rw [ih _ _ h.2]
    split
    · rfl
    · exact exposeOne_frame (Ne.symm h.1)

theorem writeCell_frame {v : Option Value} {c : Option V} {q : Nat} (h : v ≠ some (.register q)) :
    (writeCell s v c).env q = s.env q := by
  unfold writeCell
  split
  · rename_i r
    split
    · exact Function.update_of_ne (fun hq : q = r => h (hq ▸ rfl)) _ _
    · rfl
  · rfl

theorem consumeSource_frame {v : Option Value} {q : Nat} (h : v ≠ some (.register q)) :
    (consumeSource W s v).env q = s.env q := by
  unfold consumeSource
  split
  · rename_i r
    split
    · exact Function.update_of_ne (fun hq : q = r => h (hq ▸ rfl)) _ _
    · rfl
  · rfl

theorem bindResult_frame {op : Op} {v : Option V} {q : Nat} (h : op.result ≠ some q) :
    (bindResult op v s).env q = s.env q := by
  unfold bindResult
  split
  · rename_i r _ hr
    exact Function.update_of_ne (fun hq : q = r => h (hq ▸ hr)) _ _
  · rename_i r hr
    exact Function.update_of_ne (fun hq : q = r => h (hq ▸ hr)) _ _
  · rfl

theorem bindOut_frame {op : Op} {v : Option V} {q : Nat} (h : op.result ≠ some q) :
    (bindOut op v s).env q = s.env q := by
  unfold bindOut
  split
  · split
    · rename_i r hr
      exact Function.update_of_ne (fun hq : q = r => h (hq ▸ hr)) _ _
    · rfl
  · exact bindResult_frame h

theorem get_ne {vs : List Value} {q : Nat} (h : Value.register q ∉ vs) (i : Nat) : vs[i]? ≠ some (.register q) :=
  fun hi => h (List.mem_of_getElem? hi)

theorem worldOp_frame {op : Op} {q : Nat} {args : List (Arg V)} (h : Value.register q ∉ op.operands)
    (hr : op.result ≠ some q) {s1 : St V σ} (he : worldOp W op args s = .ok s1) : s1.env q = s.env q := by
  unfold worldOp at he
  split at he
  · rename_i w result written _
    cases he
    rw [bindOut_frame hr]
    have h1 : ∀ s : St V σ, (applyWrite op written s).env q = s.env q := by
      intro s
      unfold applyWrite
      split
      · exact writeCell_frame (get_ne h _)
      · rfl
    have h2 : ∀ s : St V σ, (applyMove op s).env q = s.env q := by
      intro s
      unfold applyMove
      split
      · exact writeCell_frame (get_ne h _)
      · rfl
    rw [h1, h2]
  · cases he
  · cases he

theorem execArgs_frame {op : Op} {q : Nat} {args : List (Arg V)} (h : Value.register q ∉ op.operands)
    (hr : op.result ≠ some q) {s1 : St V σ} (he : execArgs W op args s = .ok s1) : s1.env q = s.env q := by
  unfold execArgs at he
  split at he
  · cases he; exact bindResult_frame hr
  · cases he
  · split at he
    · cases he; exact bindResult_frame hr
    · cases he
  · split at he
    · cases he; exact bindResult_frame hr
    · cases he
  · cases he
  · cases he
    rw [writeCell_frame (get_ne h _), consumeSource_frame (get_ne h _)]
  · exact worldOp_frame h hr he

theorem execOp_frame {direct : Nat → Bool} {op : Op} {q : Nat} (h : Value.register q ∉ op.operands)
    (hr : op.result ≠ some q) {s1 : St V σ} (he : execOp W direct op s = .ok s1) : s1.env q = s.env q := by
  unfold execOp at he
  simp only [] at he
  split at he
  · cases he
  · rw [execArgs_frame h hr he, exposeFrom_frame _ _ _ h]

theorem Off.mono {D D' : Nat → Prop} (h : Off D s s') (hd : ∀ r, D r → D' r) : Off D' s s' :=
  ⟨h.world, fun r r' hr => h.env r r' ⟨hr.1, fun hD => hr.2 (hd r hD)⟩⟩

/-- After an operation the states also agree on its result. -/
theorem off_execOp_result {D : Nat → Prop} {direct : Nat → Bool} {op : Op} (h : Off D s s') (ha : Avoids D op.operands)
    (hst : op.kind = .store → op.result = none) :
    StepRel (Off fun r => D r ∧ op.result ≠ some r) (Off D) (execOp W direct op s) (execOp W direct op s') := by
  have := ren_execOp (W := W) (direct := direct) h (opRel_off ha) hst
  revert this
  generalize execOp W direct op s = e1
  generalize execOp W direct op s' = e2
  intro h1
  cases h1 with
  | ok h1 =>
    refine .ok ⟨h1.world, ?_⟩
    rintro r r' ⟨rfl, hr⟩
    apply h1.env
    cases hres : op.result with
    | none => rw [hres] at hr; exact ⟨rfl, fun h => hr ⟨h, by simp⟩⟩
    | some q =>
      rw [hres] at hr
      by_cases hq : r = q
      · exact Or.inl ⟨hq, hq⟩
      · exact Or.inr ⟨hq, hq, rfl, fun h => hr ⟨h, fun h' => hq (Option.some.inj h').symm⟩⟩
  | error h1 => exact .error h1
  | halt w => exact .halt w
  | stuck => exact .stuck

end Ferlium.Mir

namespace Ferlium.BranchForward

open Ferlium.Mir
open Ferlium.Peephole (boolValue boolValue_plain)

variable {V σ : Type} {W : World V σ} {f g : Body} {isBool : Nat → Bool}

/-! ### The census -/

/-- The register is a local which is only read as a whole by loads and comparisons, and only written by stores of
boolean literals. -/
structure Private (f : Body) (flag : Nat) : Prop where
  alloca : IsAlloca f flag
  terms : ∀ b ∈ f, Value.register flag ∉ b.term.operands
  ops : ∀ b ∈ f, ∀ op ∈ b.ops, ∀ i, op.operands[i]? = some (.register flag) →
    (op.kind = .store ∧ i = 1) ∨ op.kind = .compareEqual ∨ op.kind = .load

theorem mem_zipIdx {α : Type} {l : List α} {x : α} {i : Nat} : (x, i) ∈ l.zipIdx ↔ l[i]? = some x := by
  rw [List.mem_zipIdx_iff_getElem?]

theorem private_of_census {flag : Nat} (hf : isFlag isBool f flag = true) (ho : Use.other ∉ uses f flag) :
    Private f flag := by
  have hblock : ∀ b ∈ f, ∃ i, Use.other ∉ blockUses flag (b, i) := by
    intro b hb
    obtain ⟨i, hi⟩ := List.getElem?_of_mem hb
    exact ⟨i, fun h => ho (List.mem_flatMap.2 ⟨(b, i), mem_zipIdx.2 hi, h⟩)⟩
  refine ⟨?_, ?_, ?_⟩
  · unfold isFlag at hf
    rw [List.any_eq_true] at hf
    obtain ⟨b, hb, h⟩ := hf
    rw [List.any_eq_true] at h
    obtain ⟨op, hop, h⟩ := h
    refine ⟨b, hb, op, hop, ?_⟩
    cases hk : op.kind <;> rw [hk] at h <;> simp at h
    exact ⟨h.2, _, rfl⟩
  · intro b hb h
    obtain ⟨i, hi⟩ := hblock b hb
    apply hi
    unfold blockUses
    rw [List.mem_append]
    right
    rw [List.mem_filterMap]
    exact ⟨_, h, by simp [termUse]⟩
  · intro b hb op hop i h
    obtain ⟨j, hj⟩ := hblock b hb
    obtain ⟨k, hk⟩ := List.getElem?_of_mem hop
    have hne : operandUse flag j k op (.register flag, i) ≠ some .other := by
      intro hu
      apply hj
      unfold blockUses
      rw [List.mem_append]
      left
      rw [List.mem_flatMap]
      refine ⟨(op, k), mem_zipIdx.2 hk, ?_⟩
      unfold opUses
      rw [List.mem_filterMap]
      exact ⟨(.register flag, i), mem_zipIdx.2 h, hu⟩
    unfold operandUse at hne
    simp only [if_true] at hne
    cases hkind : op.kind <;> rw [hkind] at hne <;> simp at hne ⊢
    by_contra hi
    simp [hi] at hne

theorem flatMap_singleton_split {α β : Type} {h : α → List β} {x : β} : ∀ {l : List α}, l.flatMap h = [x] →
    ∃ pre a post, l = pre ++ a :: post ∧ h a = [x] ∧ (∀ y ∈ pre, h y = []) ∧ ∀ y ∈ post, h y = [] := by
  intro l
  induction l with
  | nil => intro hl; cases hl
  | cons a l ih =>
    intro hl
    rw [List.flatMap_cons] at hl
    cases ha : h a with
    | nil =>
      rw [ha, List.nil_append] at hl
      obtain ⟨pre, b, post, h1, h2, h3, h4⟩ := ih hl
      refine ⟨a :: pre, b, post, by rw [h1]; rfl, h2, ?_, h4⟩
      intro y hy
      rcases List.mem_cons.1 hy with rfl | hy
      · exact ha
      · exact h3 y hy
    | cons y ys =>
      rw [ha, List.cons_append] at hl
      simp only [List.cons.injEq, List.append_eq_nil_iff] at hl
      obtain ⟨rfl, rfl, h2⟩ := hl
      refine ⟨[], a, l, rfl, ha, by simp, ?_⟩
      intro z hz
      exact List.flatMap_eq_nil_iff.1 h2 z hz

/-- No operation mentions the register. -/
def Quiet (flag : Nat) (ops : List Op) : Prop := ∀ op ∈ ops, Value.register flag ∉ op.operands ∧ op.result ≠ some flag

theorem opUses_nil {flag b k : Nat} {op : Op} (h : opUses flag b (op, k) = []) : Value.register flag ∉ op.operands := by
  intro hm
  obtain ⟨i, hi⟩ := List.getElem?_of_mem hm
  unfold opUses at h
  rw [List.filterMap_eq_nil_iff] at h
  have := h (.register flag, i) (mem_zipIdx.2 hi)
  unfold operandUse at this
  simp only [if_true] at this
  revert this
  cases op.kind <;> simp
  split
  · split <;> simp
  · simp

theorem store_mem_uses {flag b : Nat} {v : Bool} (h : Use.store b v ∈ uses f flag) :
    ∃ blk, f[b]? = some blk ∧ Use.store b v ∈ blockUses flag (blk, b) := by
  obtain ⟨⟨blk, i⟩, h1, h2⟩ := List.mem_flatMap.1 h
  have hb : b = i := by
    have h2' := h2
    unfold blockUses at h2
    rw [List.mem_append] at h2
    rcases h2 with h2 | h2
    · obtain ⟨⟨op, k⟩, _, h3⟩ := List.mem_flatMap.1 h2
      obtain ⟨⟨u, j⟩, _, h4⟩ := List.mem_filterMap.1 h3
      unfold operandUse at h4
      revert h4
      simp only []
      split
      · split <;> (try split) <;> (try split) <;> simp <;> intros <;> simp_all
      · simp
    · obtain ⟨u, _, h3⟩ := List.mem_filterMap.1 h2
      unfold termUse at h3
      split at h3 <;> simp at h3
  subst hb
  exact ⟨blk, mem_zipIdx.1 h1, h2⟩

theorem mem_storesOf {us : List Use} {p : Nat × Bool} : p ∈ storesOf us ↔ Use.store p.1 p.2 ∈ us := by
  unfold storesOf
  rw [List.mem_filterMap]
  constructor
  · rintro ⟨u, hu, h⟩
    cases u <;> simp at h
    subst h
    exact hu
  · intro h
    exact ⟨_, h, rfl⟩

theorem storesOf_block {flag b : Nat} {blk : Block} : ∀ p ∈ storesOf (blockUses flag (blk, b)), p.1 = b := by
  intro p hp
  rw [mem_storesOf] at hp
  unfold blockUses at hp
  rw [List.mem_append] at hp
  rcases hp with h2 | h2
  · obtain ⟨⟨op, k⟩, _, h3⟩ := List.mem_flatMap.1 h2
    obtain ⟨⟨u, j⟩, _, h4⟩ := List.mem_filterMap.1 h3
    unfold operandUse at h4
    revert h4
    simp only []
    split
    · split <;> (try split) <;> (try split) <;> simp <;> intros <;> simp_all
    · simp
  · obtain ⟨u, _, h3⟩ := List.mem_filterMap.1 h2
    unfold termUse at h3
    split at h3 <;> simp at h3

/-- The stores of one block, found in the census of the whole body. -/
theorem storesOf_filter {flag b : Nat} {blk : Block} {s : Nat × Bool} (hb : f[b]? = some blk)
    (h : (storesOf (uses f flag)).filter (fun s => s.1 == b) = [s]) :
    storesOf (blockUses flag (blk, b)) = [s] ∧ s.1 = b := by
  have hs : s ∈ (storesOf (uses f flag)).filter (fun s => s.1 == b) := by rw [h]; simp
  rw [List.mem_filter] at hs
  have hsb : s.1 = b := by simpa using hs.2
  refine ⟨?_, hsb⟩
  have hsub : (storesOf (blockUses flag (blk, b))).Sublist [s] := by
    rw [← h]
    have h1 : (blockUses flag (blk, b)).Sublist (uses f flag) := by
      unfold uses
      rw [List.flatMap_def]
      exact List.sublist_flatten_of_mem (List.mem_map.2 ⟨_, mem_zipIdx.2 hb, rfl⟩)
    have h2 : (storesOf (blockUses flag (blk, b))).Sublist (storesOf (uses f flag)) := h1.filterMap _
    have h3 := h2.filter (fun s => s.1 == b)
    rwa [List.filter_eq_self.2] at h3
    intro p hp
    simpa using storesOf_block p hp
  have hmem : s ∈ storesOf (blockUses flag (blk, b)) := by
    obtain ⟨blk', h1, h2⟩ := store_mem_uses (mem_storesOf.1 hs.1)
    rw [hsb, hb] at h1
    cases h1
    rw [mem_storesOf, hsb]
    rw [hsb] at h2
    exact h2
  rcases List.sublist_singleton.1 hsub with h1 | h1
  · rw [h1] at hmem; cases hmem
  · exact h1

theorem mem_readsOf {us : List Use} {p : Nat × Nat} : p ∈ readsOf us ↔ Use.read p.1 p.2 ∈ us := by
  unfold readsOf
  rw [List.mem_filterMap]
  constructor
  · rintro ⟨u, hu, h⟩
    cases u <;> simp at h
    subst h
    exact hu
  · intro h
    exact ⟨_, h, rfl⟩

theorem read_block {flag b i k : Nat} {blk : Block} (h : Use.read i k ∈ blockUses flag (blk, b)) : i = b := by
  unfold blockUses at h
  rw [List.mem_append] at h
  rcases h with h2 | h2
  · obtain ⟨⟨op, k⟩, _, h3⟩ := List.mem_flatMap.1 h2
    obtain ⟨⟨u, j⟩, _, h4⟩ := List.mem_filterMap.1 h3
    unfold operandUse at h4
    revert h4
    simp only []
    split
    · split <;> (try split) <;> (try split) <;> simp <;> intros <;> simp_all
    · simp
  · obtain ⟨u, _, h3⟩ := List.mem_filterMap.1 h2
    unfold termUse at h3
    split at h3 <;> simp at h3

theorem opUses_store {flag b k : Nat} {op : Op} {v : Bool} (h : opUses flag b (op, k) = [.store b v])
    (hs : op.kind = .store → ∃ v p, op.operands = [v, p]) :
    op.kind = .store ∧ ∃ l, op.operands = [l, .register flag] ∧ boolValue l = some v := by
  have hm : Use.store b v ∈ opUses flag b (op, k) := by rw [h]; simp
  obtain ⟨⟨u, j⟩, h1, h2⟩ := List.mem_filterMap.1 hm
  rw [mem_zipIdx] at h1
  unfold operandUse at h2
  simp only [] at h2
  split at h2
  · rename_i hu
    split at h2
    · rename_i hk
      obtain ⟨l, p, hop⟩ := hs hk
      split at h2
      · rename_i hj
        subst hj hu
        split at h2
        · rename_i value hv
          simp only [Option.some.injEq, Use.store.injEq, true_and] at h2
          subst h2
          rw [hop] at h1 hv
          simp at h1 hv
          subst h1
          exact ⟨hk, l, hop, hv⟩
        · cases h2
      · cases h2
    · cases h2
    · cases h2
    · cases h2
  · cases h2

/-- A block with exactly one store of the flag. -/
theorem store_block {flag b : Nat} {blk : Block} {s : Nat × Bool} {join k : Nat} (hb : f[b]? = some blk)
    (hst : StoresValues f) (ho : Use.other ∉ uses f flag) (hr : readsOf (uses f flag) = [(join, k)]) (hj : b ≠ join)
    (h : (storesOf (uses f flag)).filter (fun s => s.1 == b) = [s]) :
    ∃ pre op l post, blk.ops = pre ++ op :: post ∧ op.kind = .store ∧ op.operands = [l, .register flag] ∧
      boolValue l = some s.2 ∧ ∀ op ∈ post, Value.register flag ∉ op.operands := by
  obtain ⟨h1, hsb⟩ := storesOf_filter hb h
  have hall : ∀ u ∈ blockUses flag (blk, b), ∃ v, u = .store b v := by
    intro u hu
    have hmem : u ∈ uses f flag := List.mem_flatMap.2 ⟨_, mem_zipIdx.2 hb, hu⟩
    cases u with
    | store i v => exact ⟨v, by have := storesOf_block (i, v) (mem_storesOf.2 hu); simp at this; rw [this]⟩
    | read i k' =>
      exfalso
      have h2 := read_block hu
      have h3 : (i, k') ∈ readsOf (uses f flag) := mem_readsOf.2 hmem
      rw [hr] at h3
      simp at h3
      exact hj (by rw [← h2, h3.1])
    | other => exact absurd hmem ho
  have hone : blockUses flag (blk, b) = [.store s.1 s.2] := by
    have h2 : (blockUses flag (blk, b)).map (fun u => match u with | .store i v => (i, v) | _ => (0, false)) = [s] := by
      rw [← h1]
      unfold storesOf
      generalize blockUses flag (blk, b) = us at hall
      clear h1
      induction us with
      | nil => rfl
      | cons u us ih =>
        obtain ⟨v, rfl⟩ := hall u (by simp)
        simp only [List.map_cons]
        rw [ih fun u hu => hall u (by simp [hu])]
        rfl
    cases hus : blockUses flag (blk, b) with
    | nil => rw [hus] at h2; cases h2
    | cons u us =>
      rw [hus] at h2 hall
      obtain ⟨v, rfl⟩ := hall u (by simp)
      simp only [List.map_cons, List.cons.injEq, List.map_eq_nil_iff] at h2
      obtain ⟨rfl, rfl⟩ := h2
      rfl
  have hops : blk.ops.zipIdx.flatMap (opUses flag b) = [.store s.1 s.2] := by
    unfold blockUses at hone
    rcases List.append_eq_singleton_iff.1 hone with ⟨_, h2⟩ | ⟨h2, _⟩
    · exfalso
      have : Use.store s.1 s.2 ∈ blk.term.operands.filterMap (termUse flag) := by
        simp only [] at h2; rw [h2]; simp
      obtain ⟨u, _, h3⟩ := List.mem_filterMap.1 this
      unfold termUse at h3
      split at h3 <;> simp at h3
    · exact h2
  obtain ⟨pre, ⟨op, i⟩, post, k1, k2, k3, k4⟩ := flatMap_singleton_split hops
  have k5 := congrArg (List.map Prod.fst) k1
  rw [List.zipIdx_map_fst, List.map_append, List.map_cons] at k5
  have hmemop : op ∈ blk.ops := by rw [k5]; simp
  rw [hsb] at k2
  obtain ⟨k6, l, k7, k8⟩ := opUses_store k2 fun hk => by
    obtain ⟨v, p, h, _⟩ := hst blk (List.mem_of_getElem? hb) op hmemop hk
    exact ⟨v, p, h⟩
  refine ⟨_, op, l, _, k5, k6, k7, k8, ?_⟩
  intro op' hop'
  obtain ⟨⟨o, i'⟩, h2, rfl⟩ := List.mem_map.1 hop'
  exact opUses_nil (k4 _ h2)

/-! ### Paths to the join -/

/-- The blocks between an arm and the join only restore the stack. -/
inductive Path (f : Body) (join : Nat) : Nat → Nat → List Op → Prop
  | here : Path f join 0 join []
  | pass {n b b' ops rs} : f[b]? = some ⟨ops, .goto b'⟩ → onlyRestores ops = true → Path f join n b' rs →
      Path f join (n + 1) b (ops ++ rs)

theorem path_unique {join join' n n' b : Nat} {rs rs' : List Op} (h : Path f join n b rs) (h' : Path f join' n' b rs')
    (hj : ∀ blk, f[join]? = some blk → ∀ t, blk.term ≠ .goto t) (hj' : ∀ blk, f[join']? = some blk → ∀ t, blk.term ≠ .goto t) :
    join = join' ∧ rs = rs' := by
  induction h generalizing n' rs' with
  | here =>
    cases h' with
    | here => exact ⟨rfl, rfl⟩
    | pass h1 => exact absurd rfl (hj _ h1 _)
  | pass h1 h2 h3 ih =>
    cases h' with
    | here => exact absurd rfl (hj' _ h1 _)
    | pass h4 h5 h6 =>
      rw [h1] at h4
      cases h4
      obtain ⟨a, b⟩ := ih h6
      exact ⟨a, by rw [b]⟩

/-- What is known of a found store. -/
structure FoundOk (f : Body) (stores : List (Nat × Bool)) (join : Nat) (r : Reaching) : Prop where
  ne : r.source ≠ join
  block : ∃ blk b n, f[r.source]? = some blk ∧ blk.term = .goto b ∧ Path f join n b r.replay
  store : ∃ s, stores.filter (fun s => s.1 == r.source) = [s] ∧ s.2 = r.value

theorem mem_incoming {p b : Nat} (h : p ∈ incoming f b) : ∃ blk, f[p]? = some blk ∧ b ∈ blk.term.successors := by
  unfold incoming at h
  obtain ⟨⟨blk, i⟩, h1, h2⟩ := List.mem_flatMap.1 h
  obtain ⟨t, h3, h4⟩ := List.mem_map.1 h2
  simp only [] at h4
  subst h4
  rw [List.mem_filter] at h3
  exact ⟨blk, mem_zipIdx.1 h1, by have := h3.2; simp at this; rw [← this]; exact h3.1⟩

theorem reachingLoop_spec {stores : List (Nat × Bool)} {join : Nat} : ∀ (budget : Nat) (pending : List (Nat × List Op))
    (visited : List Nat) (found res : List Reaching),
    (∀ p ∈ pending, ∃ blk b n, f[p.1]? = some blk ∧ b ∈ blk.term.successors ∧ Path f join n b p.2) →
    (∀ r ∈ found, FoundOk f stores join r ∧ r.source ∈ visited) → (found.map Reaching.source).Nodup →
    reachingLoop f stores join budget pending visited found = some res →
    (∀ r ∈ res, FoundOk f stores join r) ∧ (res.map Reaching.source).Nodup := by
  intro budget
  induction budget with
  | zero =>
    intro pending visited found res hp hf hn h
    cases pending with
    | nil => simp only [reachingLoop] at h; cases h; exact ⟨fun r hr => (hf r hr).1, hn⟩
    | cons p ps => simp only [reachingLoop] at h; cases h
  | succ budget ih =>
    intro pending visited found res hp hf hn h
    cases pending with
    | nil => simp only [reachingLoop] at h; cases h; exact ⟨fun r hr => (hf r hr).1, hn⟩
    | cons p ps =>
      obtain ⟨b, replay⟩ := p
      obtain ⟨blk, b', n, hb, hsucc, hpath⟩ := hp (b, replay) (by simp)
      simp only [reachingLoop] at h
      split at h
      · cases h
      · rename_i hcond
        simp only [not_or] at hcond
        simp only [] at hb
        rw [hb] at h
        simp only [] at h
        split at h
        · rename_i target hterm
          rw [hterm] at hsucc
          simp only [Term.successors, List.mem_singleton] at hsucc
          subst hsucc
          split at h
          · rename_i s hs
            refine ih _ _ _ _ (fun p hp' => hp p (by simp [hp'])) ?_ ?_ h
            · intro r hr
              rcases List.mem_append.1 hr with hr | hr
              · exact ⟨(hf r hr).1, by simp [(hf r hr).2]⟩
              · simp only [List.mem_singleton] at hr
                subst hr
                exact ⟨⟨hcond.1, ⟨blk, _, n, hb, hterm, hpath⟩, s, hs, rfl⟩, by simp⟩
            · rw [List.map_append, List.nodup_append]
              refine ⟨hn, by simp, ?_⟩
              intro a ha c hc
              simp only [List.map_cons, List.map_nil, List.mem_singleton] at hc
              subst hc
              obtain ⟨r, hr, rfl⟩ := List.mem_map.1 ha
              intro heq
              exact hcond.2 (heq ▸ (hf r hr).2)
          · cases h
          · split at h
            · cases h
            · rename_i hres
              split at h
              · cases h
              · split at h
                · cases h
                · refine ih _ _ _ _ ?_ (fun r hr => ⟨(hf r hr).1, by simp [(hf r hr).2]⟩) hn h
                  intro p hp'
                  rcases List.mem_append.1 hp' with hp' | hp'
                  · obtain ⟨q, hq, rfl⟩ := List.mem_map.1 hp'
                    rw [List.mem_reverse] at hq
                    obtain ⟨blk', h1, h2⟩ := mem_incoming hq
                    refine ⟨blk', b, n + 1, h1, h2, .pass ?_ ?_ hpath⟩
                    · rw [hb, ← hterm]
                    · simpa using hres
                  · exact hp p (by simp [hp'])
        · cases h

/-! ### The plans -/

/-- A block which reads the flag and branches on it. -/
structure Join (f : Body) (join flag : Nat) (expected : Bool) (pre : List Op) (read : Op) (r t e : Nat) : Prop where
  block : f[join]? = some ⟨pre ++ [read], .condBr (.register r) t e⟩
  restores : onlyRestores pre = true
  result : read.result = some r
  reads : (read.kind = .load ∧ read.operands = [.register flag] ∧ expected = true) ∨
    (read.kind = .compareEqual ∧ ∃ l, read.operands = [.register flag, l] ∧ boolValue l = some expected)
  once : useCount f r = 1
  flag : Private f flag

/-- A block which stores a boolean into the flag and goes to the join. -/
structure ArmOk (f : Body) (source : Nat) (arm : Arm) (join : Nat) : Prop where
  src : arm.source = source
  spec : ∃ flag expected pre read r t e, Join f join flag expected pre read r t e ∧
    ∃ preS op l postS b n rs v, f[source]? = some ⟨preS ++ op :: postS, .goto b⟩ ∧ op.kind = .store ∧
      op.operands = [l, .register flag] ∧ boolValue l = some v ∧ (∀ op ∈ postS, Value.register flag ∉ op.operands) ∧
      Path f join n b rs ∧ arm.replay = rs ++ pre ∧ arm.target = if v = expected then t else e

end Ferlium.BranchForward
