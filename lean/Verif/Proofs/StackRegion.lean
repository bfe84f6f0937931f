import Verif.Model.StackRegion
import Verif.Proofs.Cse
import Mathlib.Data.Prod.Lex
import Mathlib.Order.WellFounded

/-! The analysis of stack markers: which markers it finds at the top of the stack. -/
namespace Ferlium.StackRegion

open Ferlium.Mir Ferlium.Edit

variable {f : Body}

/-! ### Lists of markers -/

theorem mem_record {s : Frontier} {m x : Nat} : x ∈ record s m ↔ x = m ∨ x ∈ s := by
  induction s with
  | nil => simp [record]
  | cons y s ih =>
    rw [record]
    split
    · rename_i h; subst h; simp
    · split
      · simp
      · simp only [List.mem_cons, ih]; tauto

theorem sorted_record {s : Frontier} {m : Nat} (h : s.Pairwise (· < ·)) : (record s m).Pairwise (· < ·) := by
  induction s with
  | nil => simp [record]
  | cons y s ih =>
    rw [List.pairwise_cons] at h
    rw [record]
    split
    · exact List.pairwise_cons.2 h
    · split
      · rename_i hlt
        refine List.pairwise_cons.2 ⟨?_, List.pairwise_cons.2 h⟩
        intro a ha
        rcases List.mem_cons.1 ha with rfl | ha
        · exact hlt
        · exact lt_trans hlt (h.1 a ha)
      · refine List.pairwise_cons.2 ⟨?_, ih h.2⟩
        intro a ha
        rcases mem_record.1 ha with rfl | ha
        · omega
        · exact h.1 a ha

theorem intersect_nil (l : Frontier) : intersect l [] = [] := by cases l <;> simp [intersect]

theorem intersect_sublist (l r : Frontier) : (intersect l r).Sublist l := by
  induction l generalizing r with
  | nil => simp [intersect]
  | cons a l ih =>
    rw [intersect]
    split
    · simp
    · split
      · exact (ih _).cons_cons a
      · exact (ih _).cons a

theorem intersect_right {l r : Frontier} {x : Nat} (h : x ∈ intersect l r) : x ∈ r := by
  induction l generalizing r with
  | nil => simp [intersect] at h
  | cons a l ih =>
    rw [intersect] at h
    have hsub : ∀ y, y ∈ r.dropWhile (fun b => decide (b < a)) → y ∈ r := fun y hy => (List.dropWhile_sublist _).subset hy
    split at h
    · simp at h
    · rename_i b r' he
      rw [he] at hsub
      split at h
      · rename_i hab
        rcases List.mem_cons.1 h with rfl | h
        · exact hsub _ (by simp [hab])
        · exact hsub _ (List.mem_cons_of_mem _ (ih h))
      · exact hsub _ (ih h)

theorem dropWhile_head {r r' : Frontier} {a b : Nat} (h : r.dropWhile (fun b => decide (b < a)) = b :: r') : ¬ b < a := by
  induction r with
  | nil => simp at h
  | cons c r ih =>
    rw [List.dropWhile_cons] at h
    split at h
    · exact ih h
    · rename_i hc
      cases h
      simpa using hc

theorem intersect_both {l r : Frontier} (hl : l.Pairwise (· < ·)) (hr : r.Pairwise (· < ·)) {x : Nat} (h1 : x ∈ l) (h2 : x ∈ r) :
    x ∈ intersect l r := by
  induction l generalizing r with
  | nil => simp at h1
  | cons a l ih =>
    rw [List.pairwise_cons] at hl
    have hax : a ≤ x := by
      rcases List.mem_cons.1 h1 with rfl | h1
      · exact le_refl _
      · exact le_of_lt (hl.1 x h1)
    have hkeep : x ∈ r.dropWhile fun b => decide (b < a) := by
      clear hr ih h1
      induction r with
      | nil => simp at h2
      | cons b r ih =>
        rw [List.dropWhile_cons]
        split
        · rename_i hb
          have hb : b < a := by simpa using hb
          rcases List.mem_cons.1 h2 with rfl | h2
          · omega
          · exact ih h2
        · exact h2
    have hsort : (r.dropWhile fun b => decide (b < a)).Pairwise (· < ·) := hr.sublist (List.dropWhile_sublist _)
    have hhead := fun b r' => dropWhile_head (r := r) (r' := r') (a := a) (b := b)
    rw [intersect]
    generalize r.dropWhile (fun b => decide (b < a)) = r' at hkeep hsort hhead ⊢
    cases r' with
    | nil => simp at hkeep
    | cons b r' =>
      have hba := hhead b r' rfl
      rw [List.pairwise_cons] at hsort
      simp only []
      split
      · rename_i hab
        rcases List.mem_cons.1 h1 with h1 | h1
        · simp [h1]
        · right
          refine ih hl.2 hsort.2 h1 ?_
          rcases List.mem_cons.1 hkeep with hk | hk
          · have := hl.1 _ h1
            omega
          · exact hk
      · rename_i hab
        refine ih hl.2 (List.pairwise_cons.2 hsort) ?_ hkeep
        rcases List.mem_cons.1 h1 with h1 | h1
        · exfalso
          rcases List.mem_cons.1 hkeep with h | h
          · exact hab (by omega)
          · have := hsort.1 _ h
            omega
        · exact h1

theorem sorted_intersect {l r : Frontier} (h : l.Pairwise (· < ·)) : (intersect l r).Pairwise (· < ·) :=
  h.sublist (intersect_sublist l r)

theorem sorted_step {op : Op} {s : Frontier} (h : s.Pairwise (· < ·)) : (step op s).Pairwise (· < ·) := by
  unfold step
  split
  · split
    · exact sorted_record h
    · exact h
  · split
    · split
      · exact h
      · simp
    · exact h
  · split
    · simp
    · exact h

theorem sorted_steps (ops : List Op) : ∀ {s : Frontier}, s.Pairwise (· < ·) → (steps ops s).Pairwise (· < ·) := by
  induction ops with
  | nil => intro s h; exact h
  | cons op ops ih => intro s h; exact ih (sorted_step h)

/-! ### The effect of operations on what is known -/

/-- The markers at the top after an operation, from those before it. -/
def Adv (op : Op) (P : Nat → Prop) (m : Nat) : Prop :=
  match op.kind with
  | .stackSave => op.result = some m ∨ P m
  | .stackRestore => restored op = some m ∨ (∀ n, restored op = some n → P n) ∧ P m
  | _ => leaves op = false ∧ P m

theorem adv_save {op : Op} (h : op.kind = .stackSave) {P : Nat → Prop} {m : Nat} : Adv op P m ↔ op.result = some m ∨ P m := by
  unfold Adv
  rw [h]

theorem adv_restore {op : Op} (h : op.kind = .stackRestore) {P : Nat → Prop} {m : Nat} :
    Adv op P m ↔ restored op = some m ∨ (∀ n, restored op = some n → P n) ∧ P m := by
  unfold Adv
  rw [h]

theorem adv_other {op : Op} (h1 : op.kind ≠ .stackSave) (h2 : op.kind ≠ .stackRestore) {P : Nat → Prop} {m : Nat} :
    Adv op P m ↔ leaves op = false ∧ P m := by
  unfold Adv
  split
  · exact absurd (by assumption) h1
  · exact absurd (by assumption) h2
  · rfl

theorem step_save {op : Op} (h : op.kind = .stackSave) {s : Frontier} :
    step op s = match op.result with
      | some m => record s m
      | none => s := by
  unfold step
  rw [h]
  rfl

theorem step_restore {op : Op} (h : op.kind = .stackRestore) {s : Frontier} :
    step op s = match restored op with
      | some m => if holds s m then s else [m]
      | none => s := by
  unfold step
  rw [h]
  rfl

theorem step_other {op : Op} (h1 : op.kind ≠ .stackSave) (h2 : op.kind ≠ .stackRestore) {s : Frontier} :
    step op s = if leaves op then [] else s := by
  unfold step
  split
  · exact absurd (by assumption) h1
  · exact absurd (by assumption) h2
  · rfl

theorem mem_step {op : Op} {s : Frontier} {m : Nat} : m ∈ step op s ↔ Adv op (· ∈ s) m := by
  by_cases h1 : op.kind = .stackSave
  · rw [adv_save h1, step_save h1]
    cases hr : op.result with
    | some r =>
      simp only [mem_record, Option.some.injEq]
      exact or_congr eq_comm Iff.rfl
    | none => simp
  by_cases h2 : op.kind = .stackRestore
  · rw [adv_restore h2, step_restore h2]
    cases hn : restored op with
    | some n =>
      simp only [Option.some.injEq]
      unfold holds
      by_cases h : n ∈ s
      · simp only [h, decide_true, if_true]
        constructor
        · exact fun hm => Or.inr ⟨fun k hk => hk ▸ h, hm⟩
        · rintro (rfl | ⟨_, h⟩)
          · exact h
          · exact h
      · simp only [h, decide_false, Bool.false_eq_true, if_false, List.mem_singleton]
        constructor
        · exact fun hm => Or.inl hm.symm
        · rintro (rfl | ⟨h1, _⟩)
          · rfl
          · exact absurd (h1 n rfl) h
    | none => simp
  · rw [adv_other h1 h2, step_other h1 h2]
    split
    · rename_i h; simp [h]
    · rename_i h; simp [h]

theorem adv_mono {op : Op} {P Q : Nat → Prop} (h : ∀ m, P m → Q m) {m : Nat} (ha : Adv op P m) : Adv op Q m := by
  unfold Adv at ha ⊢
  split at ha
  · exact ha.imp id (h m)
  · exact ha.imp id fun ⟨h1, h2⟩ => ⟨fun n hn => h n (h1 n hn), h m h2⟩
  · exact ⟨ha.1, h m ha.2⟩

theorem adv_all {op : Op} {ι : Type} [Nonempty ι] {P : ι → Nat → Prop} {m : Nat} (h : ∀ i, Adv op (P i) m) :
    Adv op (fun m => ∀ i, P i m) m := by
  unfold Adv at h ⊢
  split
  · rename_i hk
    simp only [hk] at h
    by_cases hr : op.result = some m
    · exact Or.inl hr
    · exact Or.inr fun i => (h i).resolve_left hr
  · rename_i hk
    simp only [hk] at h
    by_cases hr : restored op = some m
    · exact Or.inl hr
    · exact Or.inr ⟨fun n hn i => ((h i).resolve_left hr).1 n hn, fun i => ((h i).resolve_left hr).2⟩
  · rename_i h1 h2
    split at h
    · exact absurd (by assumption) h1
    · exact absurd (by assumption) h2
    · obtain ⟨i⟩ := ‹Nonempty ι›
      exact ⟨(h i).1, fun i => (h i).2⟩

/-- The markers at the top after operations. -/
def AdvL (ops : List Op) (P : Nat → Prop) : Nat → Prop := ops.foldl (fun P op => Adv op P) P

theorem advL_cons {op : Op} {ops : List Op} {P : Nat → Prop} : AdvL (op :: ops) P = AdvL ops (Adv op P) := rfl

theorem advL_append {ops ops' : List Op} {P : Nat → Prop} : AdvL (ops ++ ops') P = AdvL ops' (AdvL ops P) := by
  simp [AdvL]

theorem mem_steps {ops : List Op} : ∀ {s : Frontier} {m : Nat}, m ∈ steps ops s ↔ AdvL ops (· ∈ s) m := by
  induction ops with
  | nil => intro s m; rfl
  | cons op ops ih =>
    intro s m
    rw [advL_cons]
    have : (Adv op fun x => x ∈ s) = fun x => x ∈ step op s := by
      funext x
      exact propext mem_step.symm
    rw [this]
    exact ih

theorem advL_mono {ops : List Op} : ∀ {P Q : Nat → Prop}, (∀ m, P m → Q m) → ∀ {m : Nat}, AdvL ops P m → AdvL ops Q m := by
  induction ops with
  | nil => intro P Q h m hm; exact h m hm
  | cons op ops ih => intro P Q h m hm; exact ih (fun m => adv_mono h) hm

theorem advL_all {ops : List Op} {ι : Type} [Nonempty ι] : ∀ {P : ι → Nat → Prop} {m : Nat}, (∀ i, AdvL ops (P i) m) →
    AdvL ops (fun m => ∀ i, P i m) m := by
  induction ops with
  | nil => intro P m h; exact h
  | cons op ops ih =>
    intro P m h
    rw [advL_cons]
    exact advL_mono (fun m => adv_all) (ih (P := fun i => Adv op (P i)) h)

/-- Where a marker at the top comes from. -/
theorem adv_origin {op : Op} {P : Nat → Prop} {m : Nat} (h : Adv op P m) :
    P m ∨ op.result = some m ∨ Value.register m ∈ op.operands := by
  unfold Adv at h
  split at h
  · tauto
  · rcases h with h | h
    · right; right
      unfold restored at h
      split at h
      · rename_i n hn
        cases h
        exact List.mem_of_mem_head? hn
      · cases h
    · exact Or.inl h.2
  · exact Or.inl h.2

/-! ### Paths -/

/-- The operations along a path from the start to the beginning of a block, last first. -/
inductive Trace (f : Body) : Nat → List Op → Prop
  | start : Trace f 0 []
  | jump {b t : Nat} {blk : Block} {tr : List Op} : Trace f b tr → f[b]? = some blk → t ∈ blk.term.successors →
      Trace f t ((blk.ops ++ invoked blk.term).reverse ++ tr)

/-- The markers known to be at the top after a path. -/
def After (tr : List Op) : Nat → Prop := tr.foldr Adv fun _ => False

theorem after_append (ops tr : List Op) : After (ops.reverse ++ tr) = AdvL ops (After tr) := by
  unfold After AdvL
  rw [List.foldr_append, List.foldr_reverse]

/-- Known along every path to the beginning of the block. -/
def Always (f : Body) (b m : Nat) : Prop := ∀ tr, Trace f b tr → After tr m

theorem mem_out {blk : Block} {s : Frontier} {m : Nat} : m ∈ out blk s ↔ AdvL (blk.ops ++ invoked blk.term) (· ∈ s) m := by
  unfold out
  rw [mem_steps, advL_append]
  have : (fun x => x ∈ steps blk.ops s) = AdvL blk.ops (· ∈ s) := by
    funext x
    exact propext mem_steps
  rw [this]

theorem sorted_out {blk : Block} {s : Frontier} (h : s.Pairwise (· < ·)) : (out blk s).Pairwise (· < ·) :=
  sorted_steps _ (sorted_steps _ h)

/-! ### The analysis -/

/-- What holds of the states at all times. -/
structure Good (f : Body) (st : States) : Prop where
  entry : st 0 = some []
  sorted : ∀ b e, st b = some e → e.Pairwise (· < ·)
  reach : ∀ b e, st b = some e → ∃ tr, Trace f b tr
  complete : ∀ b e, st b = some e → ∀ m, Always f b m → m ∈ e

theorem good_start : Good f (Function.update (fun _ => none) 0 (some [])) := by
  refine ⟨by simp, ?_, ?_, ?_⟩ <;> intro b e h <;> by_cases hb : b = 0
  all_goals first
    | (simp [Function.update_of_ne hb] at h; done)
    | subst hb
  · simp at h; subst h; simp
  · exact ⟨[], .start⟩
  · intro m hm
    exact (hm [] .start).elim

theorem always_out {st : States} (h : Good f st) {b t : Nat} {blk : Block} {e : Frontier} (hb : f[b]? = some blk)
    (he : st b = some e) (ht : t ∈ blk.term.successors) {m : Nat} (hm : Always f t m) : m ∈ out blk e := by
  rw [mem_out]
  obtain ⟨tr, htr⟩ := h.reach b e he
  have : Nonempty { tr // Trace f b tr } := ⟨⟨tr, htr⟩⟩
  have h1 : ∀ i : { tr // Trace f b tr }, AdvL (blk.ops ++ invoked blk.term) (After i.1) m := by
    intro i
    rw [← after_append]
    exact hm _ (i.2.jump hb ht)
  refine advL_mono ?_ (advL_all h1)
  intro x hx
  exact h.complete b e he x fun tr htr => hx ⟨tr, htr⟩

theorem good_update {st : States} (h : Good f st) {t : Nat} {s : Frontier} (hs : s.Pairwise (· < ·))
    (hr : ∃ tr, Trace f t tr) (hm : ∀ m, Always f t m → m ∈ s) :
    Good f (Function.update st t (some (updated (st t) s))) := by
  have key : ∀ b e, Function.update st t (some (updated (st t) s)) b = some e → (b = t ∧ e = updated (st t) s) ∨ st b = some e := by
    intro b e hb
    by_cases hbt : b = t
    · subst hbt
      simp at hb
      exact Or.inl ⟨rfl, hb.symm⟩
    · rw [Function.update_of_ne hbt] at hb
      exact Or.inr hb
  refine ⟨?_, ?_, ?_, ?_⟩
  · by_cases h0 : 0 = t
    · subst h0
      simp [h.entry, updated, intersect]
    · rw [Function.update_of_ne h0]
      exact h.entry
  · intro b e hb
    rcases key b e hb with ⟨rfl, rfl⟩ | hb
    · unfold updated
      split
      · rename_i e he
        exact sorted_intersect (h.sorted _ _ he)
      · exact hs
    · exact h.sorted b e hb
  · intro b e hb
    rcases key b e hb with ⟨rfl, rfl⟩ | hb
    · exact hr
    · exact h.reach b e hb
  · intro b e hb m hal
    rcases key b e hb with ⟨rfl, rfl⟩ | hb
    · unfold updated
      split
      · rename_i e he
        exact intersect_both (h.sorted _ _ he) hs (h.complete _ _ he m hal) (hm m hal)
      · exact hm m hal
    · exact h.complete b e hb m hal

/-- How far the analysis has come. -/
def rank (n : Nat) (st : States) : ℕ ×ₗ ℕ :=
  toLex (((List.range n).filter fun b => (st b).isNone).length, ((List.range n).map fun b => ((st b).getD []).length).sum)

theorem rank_update {n : Nat} {st : States} {t : Nat} {s : Frontier} (ht : t < n)
    (hne : st t ≠ some (updated (st t) s)) : rank n (Function.update st t (some (updated (st t) s))) < rank n st := by
  have hfun : ∀ b, b ≠ t → Function.update st t (some (updated (st t) s)) b = st b := fun b hb => Function.update_of_ne hb _ _
  unfold rank
  rw [Prod.Lex.toLex_lt_toLex]
  cases hst : st t with
  | none =>
    left
    simp only []
    have h1 : ((List.range n).filter fun b => (Function.update st t (some (updated none s)) b).isNone) =
        ((List.range n).filter fun b => (st b).isNone).filter fun b => decide (b ≠ t) := by
      rw [List.filter_filter]
      apply List.filter_congr
      intro b _
      by_cases hb : b = t
      · subst hb; simp
      · simp [Function.update_of_ne hb, hb]
    rw [h1]
    apply List.length_filter_lt_length_iff_exists.2
    exact ⟨t, by simp [List.mem_filter, ht, hst], by simp⟩
  | some e =>
    right
    rw [hst] at hne
    simp only [updated] at hne ⊢
    constructor
    · congr 1
      apply List.filter_congr
      intro b _
      by_cases hb : b = t
      · subst hb; simp [hst]
      · simp [Function.update_of_ne hb]
    · apply List.sum_lt_sum
      · intro b _
        by_cases hb : b = t
        · subst hb
          simp only [Function.update_self, Option.getD_some, hst]
          exact (intersect_sublist e s).length_le
        · rw [Function.update_of_ne hb]
      · refine ⟨t, List.mem_range.2 ht, ?_⟩
        simp only [Function.update_self, Option.getD_some, hst]
        rcases Nat.lt_or_eq_of_le (intersect_sublist e s).length_le with h | h
        · exact h
        · exact absurd (congrArg some ((intersect_sublist e s).eq_of_length h)).symm hne

/-- What a part of a sweep does. -/
def Less (f : Body) (acc acc' : States × Bool) : Prop :=
  Good f acc'.1 ∧ (acc' = acc ∨ rank f.length acc'.1 < rank f.length acc.1 ∧ acc'.2 = true)

theorem Less.trans {a b c : States × Bool} (h1 : Less f a b) (h2 : Less f b c) : Less f a c := by
  refine ⟨h2.1, ?_⟩
  rcases h1.2 with rfl | ⟨h1, h1'⟩
  · exact h2.2
  · rcases h2.2 with rfl | ⟨h2, h2'⟩
    · exact Or.inr ⟨h1, h1'⟩
    · exact Or.inr ⟨lt_trans h2 h1, h2'⟩

theorem less_succ {acc : States × Bool} (hg : Good f acc.1) {t : Nat} {s : Frontier} (hs : s.Pairwise (· < ·)) (ht : t < f.length)
    (hr : ∃ tr, Trace f t tr) (hm : ∀ m, Always f t m → m ∈ s) : Less f acc (visitSucc s acc t) := by
  unfold visitSucc
  split
  · exact ⟨hg, Or.inl rfl⟩
  · rename_i hne
    exact ⟨good_update hg hs hr hm, Or.inr ⟨rank_update ht hne, rfl⟩⟩

theorem less_succs {s : Frontier} (hs : s.Pairwise (· < ·)) (ts : List Nat) : ∀ {acc : States × Bool}, Good f acc.1 →
    (∀ t ∈ ts, t < f.length ∧ (∃ tr, Trace f t tr) ∧ ∀ m, Always f t m → m ∈ s) →
    Less f acc (ts.foldl (visitSucc s) acc) := by
  induction ts with
  | nil => intro acc hg _; exact ⟨hg, Or.inl rfl⟩
  | cons t ts ih =>
    intro acc hg ht
    obtain ⟨h1, h2, h3⟩ := ht t (by simp)
    have h := less_succ hg hs h1 h2 h3
    exact h.trans (ih h.1 fun t h => ht t (List.mem_cons_of_mem _ h))

theorem less_block (hr : InRange f) {acc : States × Bool} (hg : Good f acc.1) (b : Nat) : Less f acc (visitBlock f acc b) := by
  unfold visitBlock
  split
  · rename_i blk e hb he
    refine less_succs (sorted_out (hg.sorted b e he)) _ hg ?_
    intro t ht
    obtain ⟨tr, htr⟩ := hg.reach b e he
    exact ⟨hr blk (List.mem_of_getElem? hb) t ht, ⟨_, htr.jump hb ht⟩, fun m hm => always_out hg hb he ht hm⟩
  · exact ⟨hg, Or.inl rfl⟩

theorem less_blocks (hr : InRange f) (bs : List Nat) : ∀ {acc : States × Bool}, Good f acc.1 →
    Less f acc (bs.foldl (visitBlock f) acc) := by
  induction bs with
  | nil => intro acc hg; exact ⟨hg, Or.inl rfl⟩
  | cons b bs ih =>
    intro acc hg
    have h := less_block hr hg b
    exact h.trans (ih h.1)

theorem visitSucc_flag {s : Frontier} {acc : States × Bool} {t : Nat} (h : (visitSucc s acc t).2 = false) :
    acc.2 = false ∧ visitSucc s acc t = acc ∧ acc.1 t = some (updated (acc.1 t) s) := by
  unfold visitSucc at h ⊢
  split
  · rename_i he
    rw [if_pos he] at h
    exact ⟨h, rfl, he⟩
  · rename_i he
    rw [if_neg he] at h
    cases h

theorem visitSuccs_flag {s : Frontier} (ts : List Nat) : ∀ {acc : States × Bool}, (ts.foldl (visitSucc s) acc).2 = false →
    ts.foldl (visitSucc s) acc = acc ∧ ∀ t ∈ ts, acc.1 t = some (updated (acc.1 t) s) := by
  induction ts with
  | nil => intro acc _; exact ⟨rfl, by simp⟩
  | cons t ts ih =>
    intro acc h
    rw [List.foldl_cons] at h ⊢
    obtain ⟨h1, h2⟩ := ih h
    rw [h1] at h ⊢
    obtain ⟨h3, h4, h5⟩ := visitSucc_flag h
    rw [h4] at h2 ⊢
    refine ⟨rfl, ?_⟩
    intro t' ht'
    rcases List.mem_cons.1 ht' with rfl | ht'
    · exact h5
    · exact h2 t' ht'

theorem visitBlocks_flag (bs : List Nat) : ∀ {acc : States × Bool}, (bs.foldl (visitBlock f) acc).2 = false →
    bs.foldl (visitBlock f) acc = acc ∧ ∀ b ∈ bs, ∀ blk e, f[b]? = some blk → acc.1 b = some e →
      ∀ t ∈ blk.term.successors, acc.1 t = some (updated (acc.1 t) (out blk e)) := by
  induction bs with
  | nil => intro acc _; exact ⟨rfl, by simp⟩
  | cons b bs ih =>
    intro acc h
    rw [List.foldl_cons] at h ⊢
    obtain ⟨h1, h2⟩ := ih h
    rw [h1] at h ⊢
    have hb : visitBlock f acc b = acc ∧ ∀ blk e, f[b]? = some blk → acc.1 b = some e →
        ∀ t ∈ blk.term.successors, acc.1 t = some (updated (acc.1 t) (out blk e)) := by
      unfold visitBlock at h ⊢
      cases hf : f[b]? with
      | none => simp
      | some blk =>
        cases he : acc.1 b with
        | none => simp
        | some e =>
          rw [hf, he] at h
          simp only [] at h ⊢
          obtain ⟨k1, k2⟩ := visitSuccs_flag _ h
          refine ⟨k1, ?_⟩
          intro blk' e' hb' he'
          cases hb'; cases he'
          exact k2
    rw [hb.1] at h2 ⊢
    refine ⟨rfl, ?_⟩
    intro b' hb'
    rcases List.mem_cons.1 hb' with rfl | hb'
    · exact hb.2
    · exact h2 b' hb'

/-- The states satisfy the equations of the analysis. -/
structure Closed (f : Body) (st : States) : Prop extends Good f st where
  closed : ∀ (b : Nat) blk e, f[b]? = some blk → st b = some e → ∀ t ∈ blk.term.successors,
    ∃ e', st t = some e' ∧ ∀ m ∈ e', m ∈ out blk e

theorem updated_sub {e : Option Frontier} {s : Frontier} {m : Nat} (h : m ∈ updated e s) : m ∈ s := by
  unfold updated at h
  split at h
  · exact intersect_right h
  · exact h

theorem analyzeFrom_spec (hr : InRange f) (st : States) (hg : Good f st) : ∃ st', analyzeFrom f st = some st' ∧ Closed f st' := by
  generalize hx : rank f.length st = x
  induction x using WellFoundedLT.induction generalizing st with
  | ind x ih =>
    have hl := less_blocks hr (List.range f.length) (acc := (st, false)) hg
    rw [analyzeFrom]
    unfold sweep
    generalize hs : (List.range f.length).foldl (visitBlock f) (st, false) = r at hl
    obtain ⟨st1, fl⟩ := r
    cases fl with
    | true =>
      simp only []
      rcases hl.2 with h | ⟨h, _⟩
      · cases h
      · exact ih _ (hx ▸ h) st1 hl.1 rfl
    | false =>
      simp only []
      refine ⟨st1, rfl, hl.1, ?_⟩
      obtain ⟨h1, h2⟩ := visitBlocks_flag (f := f) (List.range f.length) (acc := (st, false)) (by rw [hs])
      rw [h1] at hs
      cases hs
      intro b blk e hb he t ht
      have hb' : b ∈ List.range f.length := List.mem_range.2 (List.getElem?_eq_some_iff.1 hb).1
      have := h2 b hb' blk e hb he t ht
      exact ⟨_, this, fun m hm => updated_sub hm⟩

theorem analyze_spec (hr : InRange f) : ∃ st, analyze f = some st ∧ Closed f st := analyzeFrom_spec hr _ good_start

theorem closed_trace {st : States} (h : Closed f st) {b : Nat} {tr : List Op} (ht : Trace f b tr) :
    ∃ e, st b = some e ∧ ∀ m ∈ e, After tr m := by
  induction ht with
  | start => exact ⟨[], h.entry, by simp⟩
  | @jump b t blk tr _ hb ht ih =>
    obtain ⟨e, h1, h2⟩ := ih
    obtain ⟨e', h3, h4⟩ := h.closed b blk e hb h1 t ht
    refine ⟨e', h3, ?_⟩
    intro m hm
    rw [after_append]
    exact advL_mono h2 (mem_out.1 (h4 m hm))

/-- The analysis finds exactly the markers which are known along every path. -/
theorem closed_iff {st : States} (h : Closed f st) {b : Nat} {e : Frontier} (he : st b = some e) (m : Nat) :
    m ∈ e ↔ Always f b m := by
  constructor
  · intro hm tr htr
    obtain ⟨e', h1, h2⟩ := closed_trace h htr
    rw [he] at h1
    cases h1
    exact h2 m hm
  · exact h.complete b e he m

theorem trace_reachable {b : Nat} {tr : List Op} (h : Trace f b tr) : Reachable f b := by
  induction h with
  | start => exact .refl
  | jump _ hb ht ih => exact ih.tail ⟨_, hb, ht⟩

theorem reachable_trace {b : Nat} (h : Reachable f b) : ∃ tr, Trace f b tr := by
  induction h with
  | refl => exact ⟨[], .start⟩
  | tail _ he ih =>
    obtain ⟨tr, h⟩ := ih
    obtain ⟨blk, h1, h2⟩ := he
    exact ⟨_, h.jump h1 h2⟩

theorem closed_some {st : States} (h : Closed f st) {b : Nat} : (∃ e, st b = some e) ↔ Reachable f b := by
  constructor
  · rintro ⟨e, he⟩
    obtain ⟨tr, ht⟩ := h.reach b e he
    exact trace_reachable ht
  · intro hr
    obtain ⟨tr, ht⟩ := reachable_trace hr
    obtain ⟨e, he, _⟩ := closed_trace h ht
    exact ⟨e, he⟩

end Ferlium.StackRegion
