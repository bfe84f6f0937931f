import Verif.Proofs.Edit

/-! Lemmas on merging blocks into their only predecessor. -/
namespace Ferlium.Edit

open Ferlium.Mir Ferlium.Graph

variable {V σ : Type} {W : World V σ} {f g : Body}

/-! ### One merge -/

/-- The conditions under which `q` is merged into `p`. -/
structure Mergeable (f : Body) (p q : Nat) (P Q : Block) : Prop where
  pred : f[p]? = some P
  succ : f[q]? = some Q
  jump : P.term = .goto q
  ne : q ≠ p
  entry : q ≠ 0
  only : ∀ b blk, f[b]? = some blk → q ∈ blk.term.successors → b = p

/-- The body after the merge. -/
def merged (f : Body) (p q : Nat) (P Q : Block) : Body :=
  (f.set q { ops := [], term := .ret }).set p { ops := P.ops ++ Q.ops, term := Q.term }

theorem merged_pred {p q : Nat} {P Q : Block} (h : Mergeable f p q P Q) :
    (merged f p q P Q)[p]? = some { ops := P.ops ++ Q.ops, term := Q.term } := by
  have := (List.getElem?_eq_some_iff.1 h.pred).1
  simp [merged, this]

theorem merged_succ {p q : Nat} {P Q : Block} (h : Mergeable f p q P Q) :
    (merged f p q P Q)[q]? = some { ops := [], term := .ret } := by
  have := (List.getElem?_eq_some_iff.1 h.succ).1
  rw [merged, List.getElem?_set_ne (Ne.symm h.ne)]
  simp [this]

theorem merged_other {p q b : Nat} {P Q : Block} (hp : b ≠ p) (hq : b ≠ q) :
    (merged f p q P Q)[b]? = f[b]? := by
  rw [merged, List.getElem?_set_ne (Ne.symm hp), List.getElem?_set_ne (Ne.symm hq)]

/-- The relation between the executions. -/
inductive MergeRel (q : Nat) (Q : Block) : Config V σ → Config V σ → Prop
  | done x : MergeRel q Q (.done x) (.done x)
  | same {ops t s} : q ∉ t.successors → MergeRel q Q (.at ops t s) (.at ops t s)
  | joined {ops s} : MergeRel q Q (.at ops (.goto q) s) (.at (ops ++ Q.ops) Q.term s)

theorem merge_enter {p q b : Nat} {P Q : Block} (h : Mergeable f p q P Q) (hb : b ≠ q) (s : St V σ) :
    MergeRel q Q (enter f b s) (enter (merged f p q P Q) b s) := by
  unfold enter
  by_cases hp : b = p
  · subst hp
    simp only [merged_pred h, h.pred, h.jump]
    exact .joined
  · rw [merged_other hp hb]
    split
    · rename_i blk hblk
      exact .same fun hq => hp (h.only b blk hblk hq)
    · exact .done _

theorem merge_step_same {p q : Nat} {P Q : Block} (h : Mergeable f p q P Q) {ops : List Op} {t : Term} {s : St V σ}
    (hq : q ∉ t.successors) :
    MergeRel q Q (step W f (.at ops t s)) (step W (merged f p q P Q) (.at ops t s)) := by
  cases ops with
  | cons op ops =>
    simp only [step]
    split
    · exact .same hq
    · exact .done _
    · exact .done _
    · exact .done _
  | nil =>
    simp only [step]
    cases t with
    | goto b =>
      simp only [Term.successors, List.mem_singleton] at hq
      exact merge_enter h (Ne.symm hq) s
    | condBr c t e =>
      simp only [Term.successors, List.mem_cons, List.not_mem_nil, or_false, not_or] at hq
      simp only [stepTerm]
      split
      · exact merge_enter h (Ne.symm hq.1) s
      · exact merge_enter h (Ne.symm hq.2) s
      · exact .done _
    | invoke op n e =>
      simp only [Term.successors, List.mem_cons, List.not_mem_nil, or_false, not_or] at hq
      simp only [stepTerm]
      split
      · exact merge_enter h (Ne.symm hq.1) _
      · exact merge_enter h (Ne.symm hq.2) _
      · exact .done _
      · exact .done _
    | yield v b =>
      simp only [Term.successors, List.mem_singleton] at hq
      simp only [stepTerm]
      split
      · split
        · exact merge_enter h (Ne.symm hq) _
        · exact .done _
      · exact .done _
    | ret => exact .done _
    | propagateError => exact .done _
    | cleanupFailure => exact .done _

theorem merge_goto {p q : Nat} {P Q : Block} (h : Mergeable f p q P Q) (s : St V σ) :
    step W f (.at [] (.goto q) s) = .at Q.ops Q.term s := by
  simp [step, stepTerm, enter, h.succ]

theorem merge_succ_noself {p q : Nat} {P Q : Block} (h : Mergeable f p q P Q) : q ∉ Q.term.successors :=
  fun hq => h.ne (h.only q Q h.succ hq)

theorem merge_same {p q : Nat} {P Q : Block} (h : Mergeable f p q P Q) (w : σ) :
    SameBehaviour W f (merged f p q P Q) w := by
  have hop : ∀ (op : Op) (ops : List Op) (s : St V σ), MergeRel q Q (step W f (.at (op :: ops) (.goto q) s))
      (step W (merged f p q P Q) (.at (op :: (ops ++ Q.ops)) Q.term s)) := by
    intro op ops s
    simp only [step]
    split
    · exact .joined
    · exact .done _
    · exact .done _
    · exact .done _
  refine sim_both (MergeRel q Q) ?_ ?_ ?_ ?_ ?_ (merge_enter h (Ne.symm h.entry) _)
  · intro c c' h
    cases h <;> rfl
  · intro x c' h; cases h; rfl
  · intro x c' h; cases h; rfl
  · intro c c' hr
    cases hr with
    | done x => exact ⟨0, .done x⟩
    | same hq => exact ⟨1, merge_step_same h hq⟩
    | @joined ops s =>
      cases ops with
      | nil => exact ⟨0, by rw [merge_goto h]; exact .same (merge_succ_noself h)⟩
      | cons op ops => exact ⟨1, hop op ops s⟩
  · intro c c' hr
    cases hr with
    | done x => exact ⟨0, .done x⟩
    | same hq => exact ⟨1, merge_step_same h hq⟩
    | @joined ops s =>
      cases ops with
      | nil =>
        refine ⟨2, ?_⟩
        simp only [run, merge_goto h, List.nil_append]
        exact merge_step_same h (merge_succ_noself h)
      | cons op ops => exact ⟨1, hop op ops s⟩

/-! ### Counting over blocks -/

theorem sum_set (l : List Nat) (i v : Nat) {a : Nat} (h : l[i]? = some a) : (l.set i v).sum + a = l.sum + v := by
  induction l generalizing i with
  | nil => simp at h
  | cons x l ih =>
    cases i with
    | zero => simp at h; subst h; simp; omega
    | succ i =>
      have := ih i (by simpa using h)
      simp only [List.set_cons_succ, List.sum_cons]
      omega

theorem le_sum (l : List Nat) (i : Nat) {a : Nat} (h : l[i]? = some a) : a ≤ l.sum := by
  have := sum_set l i 0 h
  omega

theorem two_le_sum (l : List Nat) {i j a b : Nat} (hij : i ≠ j) (hi : l[i]? = some a) (hj : l[j]? = some b) :
    a + b ≤ l.sum := by
  have h1 := sum_set l i 0 hi
  have h2 := le_sum (l.set i 0) j (a := b) (by rw [List.getElem?_set_ne hij]; exact hj)
  omega

/-- The sum over a merged body of a quantity of a block. -/
theorem merged_sum (u : Block → Nat) {p q : Nat} {P Q : Block} (h : Mergeable f p q P Q) :
    ((merged f p q P Q).map u).sum + u P + u Q =
      (f.map u).sum + u { ops := P.ops ++ Q.ops, term := Q.term } + u { ops := [], term := .ret } := by
  have h1 : (f.map u)[q]? = some (u Q) := by simp [h.succ]
  have h2 := sum_set (f.map u) q (u { ops := [], term := .ret }) h1
  have h3 : ((f.map u).set q (u { ops := [], term := .ret }))[p]? = some (u P) := by
    rw [List.getElem?_set_ne h.ne]
    simp [h.pred]
  have h4 := sum_set _ p (u { ops := P.ops ++ Q.ops, term := Q.term }) h3
  simp only [merged, List.map_set]
  omega

/-- All edges, with multiplicity. -/
def edges (f : Body) : List Nat := f.flatMap fun b => b.term.successors

theorem count_flatMap (u : Block → List Nat) (f : Body) (x : Nat) :
    (f.flatMap u).count x = (f.map fun b => (u b).count x).sum := by
  induction f with
  | nil => simp
  | cons b f ih => simp [List.count_append, ih]

theorem length_flatMap (u : Block → List Nat) (f : Body) :
    (f.flatMap u).length = (f.map fun b => (u b).length).sum := by
  induction f with
  | nil => simp
  | cons b f ih => simp [ih]

theorem merged_edges_count {p q : Nat} {P Q : Block} (h : Mergeable f p q P Q) (x : Nat) :
    (edges (merged f p q P Q)).count x + (if x = q then 1 else 0) = (edges f).count x := by
  have := merged_sum (fun b => b.term.successors.count x) h
  simp only [edges, count_flatMap]
  have hret : Term.ret.successors = [] := rfl
  have hgoto : (Term.goto q).successors = [q] := rfl
  simp only [h.jump, hret, hgoto, List.count_nil, List.count_singleton] at this
  by_cases hx : x = q
  · subst hx; simp at this ⊢; omega
  · simp [Ne.symm hx] at this
    simp [hx]
    omega

theorem merged_edges_length {p q : Nat} {P Q : Block} (h : Mergeable f p q P Q) :
    (edges (merged f p q P Q)).length + 1 = (edges f).length := by
  have := merged_sum (fun b => b.term.successors.length) h
  simp only [edges, length_flatMap]
  have hret : Term.ret.successors = [] := rfl
  have hgoto : (Term.goto q).successors = [q] := rfl
  simp only [h.jump, hret, hgoto, List.length_nil, List.length_singleton] at this
  omega

theorem merged_results_count {p q : Nat} {P Q : Block} (h : Mergeable f p q P Q) (x : Nat) :
    (results (merged f p q P Q)).count x = (results f).count x := by
  have := merged_sum (fun b => b.results.count x) h
  simp only [results, count_flatMap]
  simp only [Block.results, List.filterMap_append, List.filterMap_nil, List.count_append, List.count_nil] at this ⊢
  omega

theorem merged_length {p q : Nat} {P Q : Block} : (merged f p q P Q).length = f.length := by simp [merged]

/-- The blocks of a merged body. -/
theorem merged_mem {p q : Nat} {P Q : Block} {b : Block} (hb : b ∈ merged f p q P Q) :
    b ∈ f ∨ b = { ops := [], term := .ret } ∨ b = { ops := P.ops ++ Q.ops, term := Q.term } := by
  rcases List.mem_or_eq_of_mem_set hb with h | h
  · rcases List.mem_or_eq_of_mem_set h with h | h
    · exact Or.inl h
    · exact Or.inr (Or.inl h)
  · exact Or.inr (Or.inr h)

theorem merged_inRange {p q : Nat} {P Q : Block} (h : Mergeable f p q P Q) (hr : InRange f) :
    InRange (merged f p q P Q) := by
  intro b hb t ht
  rw [merged_length]
  rcases merged_mem hb with h1 | rfl | rfl
  · exact hr b h1 t ht
  · simp [Term.successors] at ht
  · exact hr Q (List.mem_of_getElem? h.succ) t ht

theorem merged_op {p q : Nat} {P Q : Block} (h : Mergeable f p q P Q) {b : Block} (hb : b ∈ merged f p q P Q) {op : Op}
    (hop : op ∈ b.ops) : ∃ b' ∈ f, op ∈ b'.ops := by
  rcases merged_mem hb with h1 | rfl | rfl
  · exact ⟨b, h1, hop⟩
  · simp at hop
  · rcases List.mem_append.1 hop with h2 | h2
    · exact ⟨P, List.mem_of_getElem? h.pred, h2⟩
    · exact ⟨Q, List.mem_of_getElem? h.succ, h2⟩

theorem merged_valid {p q : Nat} {P Q : Block} (h : Mergeable f p q P Q) (hf : Valid f) :
    Valid (merged f p q P Q) := by
  refine ⟨merged_inRange h hf.inRange, ⟨?_, ?_⟩, ?_⟩
  · rw [List.nodup_iff_count_le_one]
    intro x
    rw [merged_results_count h]
    exact List.nodup_iff_count_le_one.1 hf.single.1 x
  · intro b hb op n e ht
    rcases merged_mem hb with h1 | rfl | rfl
    · exact hf.single.2 b h1 op n e ht
    · cases ht
    · exact hf.single.2 Q (List.mem_of_getElem? h.succ) op n e ht
  · intro b hb op hop hk
    obtain ⟨b', hb', hop'⟩ := merged_op h hb hop
    obtain ⟨v, p', h2, h3⟩ := hf.stores b' hb' op hop' hk
    have hal : ∀ r, IsAlloca (merged f p q P Q) r → IsAlloca f r := by
      rintro r ⟨c', hc', op', ho', hr', ty, hty⟩
      obtain ⟨c, hc, h4⟩ := merged_op h hc' ho'
      exact ⟨c, hc, op', h4, hr', ty, hty⟩
    exact ⟨v, p', h2, fun a r hp hq hv hr => h3 a r hp (hal a hq) hv (hal r hr)⟩

/-! ### The edge counts -/

/-- The counts are those of the body. -/
structure Counts (f : Body) (incoming : List Nat) : Prop where
  len : incoming.length = f.length
  count : ∀ x, x < f.length → incoming[x]? = some ((edges f).count x)

theorem countEdges (es : List Nat) : ∀ (l : List Nat), (∀ e ∈ es, e < l.length) →
    ∃ l', es.foldlM (init := l) countEdge = some l' ∧ l'.length = l.length ∧
      ∀ (x : Nat) n, l[x]? = some n → l'[x]? = some (n + es.count x) := by
  induction es with
  | nil => intro l _; exact ⟨l, rfl, rfl, fun x n h => by simpa using h⟩
  | cons e es ih =>
    intro l hl
    have he : e < l.length := hl e (by simp)
    obtain ⟨l', h1, h2, h3⟩ := ih (l.set e (l[e] + 1)) (fun e' he' => by simpa using hl e' (by simp [he']))
    refine ⟨l', ?_, by simpa using h2, ?_⟩
    · rw [List.foldlM_cons]
      simp only [countEdge, List.getElem?_eq_getElem he, Option.map_some, Option.bind_eq_bind, Option.bind_some]
      exact h1
    · intro x n hx
      by_cases hxe : x = e
      · subst hxe
        have := h3 x (l[x] + 1) (by simp [he])
        rw [this]
        rw [List.getElem?_eq_getElem he] at hx
        cases hx
        simp only [List.count_cons_self]
        congr 1; omega
      · have := h3 x n (by rw [List.getElem?_set_ne (Ne.symm hxe)]; exact hx)
        rw [this, List.count_cons_of_ne (Ne.symm hxe)]

theorem incomingCounts_spec (hr : InRange f) : ∃ l, incomingCounts f = some l ∧ Counts f l := by
  obtain ⟨l, h1, h2, h3⟩ := countEdges (edges f) (List.replicate f.length 0) (by
    intro e he
    obtain ⟨b, hb, he⟩ := List.mem_flatMap.1 he
    simpa using hr b hb e he)
  refine ⟨l, h1, by simpa using h2, fun x hx => ?_⟩
  have := h3 x 0 (by simp [hx])
  simpa using this

theorem mem_edges {b : Nat} {blk : Block} {x : Nat} (hb : f[b]? = some blk) (hx : x ∈ blk.term.successors) :
    x ∈ edges f := List.mem_flatMap.2 ⟨blk, List.mem_of_getElem? hb, hx⟩

/-- A single edge into `q`. -/
theorem only_of_count {p q : Nat} {P : Block} (hp : f[p]? = some P) (hj : P.term = .goto q)
    (hc : (edges f).count q = 1) : ∀ b blk, f[b]? = some blk → q ∈ blk.term.successors → b = p := by
  intro b blk hb hq
  by_contra hne
  have h1 : (f.map fun b => b.term.successors.count q)[p]? = some 1 := by
    simp [hp, hj, Term.successors]
  have h2 : (f.map fun b => b.term.successors.count q)[b]? = some (blk.term.successors.count q) := by simp [hb]
  have h3 := two_le_sum _ hne h2 h1
  rw [edges, count_flatMap] at hc
  have h4 := List.count_pos_iff.2 hq
  omega

theorem count_of_only {p q : Nat} {P : Block} (hp : f[p]? = some P) (hj : P.term = .goto q)
    (ho : ∀ b blk, f[b]? = some blk → q ∈ blk.term.successors → b = p) : (edges f).count q = 1 := by
  have h1 : (f.map fun b => b.term.successors.count q)[p]? = some 1 := by
    simp [hp, hj, Term.successors]
  have h2 := sum_set _ p 0 h1
  rw [edges, count_flatMap]
  have h3 : ((f.map fun b => b.term.successors.count q).set p 0).sum = 0 := by
    rw [List.sum_eq_zero_iff]
    intro n hn
    obtain ⟨i, hi⟩ := List.getElem?_of_mem hn
    by_cases hip : p = i
    · subst hip
      rw [List.getElem?_set_self'] at hi
      simp [hp] at hi
      exact hi.symm
    · rw [List.getElem?_set_ne hip, List.getElem?_map, Option.map_eq_some_iff] at hi
      obtain ⟨blk, hb, rfl⟩ := hi
      rw [List.count_eq_zero]
      intro hq
      exact hip (ho i blk hb hq).symm
  omega

/-- There is a jump to `q` from `p` only. -/
def Joinable (f : Body) (p q : Nat) : Prop :=
  (∃ P, f[p]? = some P ∧ P.term = .goto q) ∧ q ≠ 0 ∧ q ≠ p ∧
    ∀ b blk, f[b]? = some blk → q ∈ blk.term.successors → b = p

theorem mergeableSuccessor_spec (hr : InRange f) {incoming : List Nat} (hc : Counts f incoming) {p : Nat}
    (hp : p < f.length) : ∃ m, mergeableSuccessor f incoming p = some m ∧ ∀ q, m = some q ↔ Joinable f p q := by
  unfold mergeableSuccessor
  rw [List.getElem?_eq_getElem hp]
  simp only []
  have hnot : ∀ q, (∀ t, f[p].term ≠ .goto t) → ¬ Joinable f p q := by
    rintro q h ⟨⟨P, h1, h2⟩, _⟩
    rw [List.getElem?_eq_getElem hp] at h1
    cases h1
    exact h _ h2
  split
  · rename_i t ht
    have ht1 : t < f.length := hr f[p] (List.getElem_mem hp) t (by rw [ht]; simp [Term.successors])
    have hjt : ∀ q, Joinable f p q → q = t := by
      rintro q ⟨⟨P, h1, h2⟩, _⟩
      rw [List.getElem?_eq_getElem hp] at h1
      cases h1
      rw [ht] at h2
      cases h2; rfl
    split
    · rename_i h
      refine ⟨none, rfl, fun q => ⟨fun h => (by cases h), fun hj => ?_⟩⟩
      have := hjt q hj
      subst this
      rcases h with h | h
      · exact absurd h hj.2.1
      · exact absurd h hj.2.2.1
    · rename_i h
      rw [not_or] at h
      rw [hc.count t ht1]
      refine ⟨_, rfl, fun q => ?_⟩
      constructor
      · intro hq
        simp only [] at hq
        split at hq
        · rename_i h1
          cases hq
          exact ⟨⟨_, List.getElem?_eq_getElem hp, ht⟩, h.1, h.2,
            only_of_count (List.getElem?_eq_getElem hp) ht h1⟩
        · cases hq
      · intro hj
        have := hjt q hj
        subst this
        obtain ⟨⟨P, h1, h2⟩, _, _, h3⟩ := hj
        exact if_pos (count_of_only h1 h2 h3)
  · rename_i h
    refine ⟨none, rfl, fun q => ⟨fun h => (by cases h), fun hj => absurd hj (hnot q ?_)⟩⟩
    intro t ht
    exact h t ht

theorem mergeable_of_joinable (hr : InRange f) {p q : Nat} (h : Joinable f p q) :
    ∃ P Q, Mergeable f p q P Q ∧ mergeInto f p q = some (merged f p q P Q) := by
  obtain ⟨⟨P, h1, h2⟩, h3, h4, h5⟩ := h
  have hq : q < f.length := hr P (List.mem_of_getElem? h1) q (by rw [h2]; simp [Term.successors])
  refine ⟨P, f[q], ⟨h1, List.getElem?_eq_getElem hq, h2, h4, h3, h5⟩, ?_⟩
  simp [mergeInto, h1, List.getElem?_eq_getElem hq, merged]

theorem counts_merged {p q : Nat} {P Q : Block} (h : Mergeable f p q P Q) {incoming : List Nat}
    (hc : Counts f incoming) : Counts (merged f p q P Q) (incoming.set q 0) := by
  refine ⟨by rw [List.length_set, hc.len, merged_length], fun x hx => ?_⟩
  rw [merged_length] at hx
  have h1 := merged_edges_count h x
  by_cases hxq : q = x
  · subst hxq
    have h2 := count_of_only h.pred h.jump h.only
    rw [List.getElem?_set_self (by rw [hc.len]; exact hx)]
    simp at h1
    congr 1; omega
  · rw [List.getElem?_set_ne hxq, hc.count x hx]
    simp [Ne.symm hxq] at h1
    rw [h1]

/-- Joinable pairs after a merge were there before, except those of the block which grew. -/
theorem joinable_merged {p q : Nat} {P Q : Block} (h : Mergeable f p q P Q) {a b : Nat}
    (hj : Joinable (merged f p q P Q) a b) : a = p ∨ Joinable f a b := by
  obtain ⟨⟨A, h1, h2⟩, h3, h4, h5⟩ := hj
  by_cases hap : a = p
  · exact Or.inl hap
  right
  have haq : a ≠ q := by
    rintro rfl
    rw [merged_succ h] at h1
    cases h1; cases h2
  rw [merged_other hap haq] at h1
  refine ⟨⟨A, h1, h2⟩, h3, h4, fun c blk hc hb => ?_⟩
  by_cases hcp : c = p
  · subst hcp
    rw [h.pred] at hc; cases hc
    rw [h.jump] at hb
    simp [Term.successors] at hb
    subst hb
    exact absurd (h.only a A h1 (by rw [h2]; simp [Term.successors])) hap
  · by_cases hcq : c = q
    · subst hcq
      rw [h.succ] at hc; cases hc
      exact absurd (h5 p _ (merged_pred h) hb) (Ne.symm hap)
    · exact h5 c blk (by rw [merged_other hcp hcq]; exact hc) hb

/-- Reachability after a merge. -/
theorem reachable_merged {p q : Nat} {P Q : Block} (h : Mergeable f p q P Q) {b : Nat} (hb : Reachable f b) :
    (b ≠ q → Reachable (merged f p q P Q) b) ∧ (b = q → Reachable (merged f p q P Q) p) := by
  induction hb with
  | refl => exact ⟨fun _ => .refl, fun h' => absurd h'.symm h.entry⟩
  | @tail b c _ he ih =>
    obtain ⟨blk, h1, h2⟩ := he
    constructor
    · intro hcq
      by_cases hbq : b = q
      · refine (ih.2 hbq).tail ⟨_, merged_pred h, ?_⟩
        subst hbq
        rw [h.succ] at h1; cases h1
        exact h2
      · by_cases hbp : b = p
        · subst hbp
          rw [h.pred] at h1; cases h1
          rw [h.jump] at h2
          simp [Term.successors] at h2
          exact absurd h2 hcq
        · exact (ih.1 hbq).tail ⟨blk, by rw [merged_other hbp hbq]; exact h1, h2⟩
    · rintro rfl
      have := h.only b blk h1 h2
      subst this
      exact ih.1 (Ne.symm h.ne)

/-! ### The loop -/

/-- Every block is reachable or has been emptied. -/
def Tidy (f : Body) : Prop := ∀ b blk, f[b]? = some blk → Reachable f b ∨ blk.term = .ret

theorem tidy_merged {p q : Nat} {P Q : Block} (h : Mergeable f p q P Q) (ht : Tidy f) : Tidy (merged f p q P Q) := by
  intro b blk hb
  by_cases hbq : b = q
  · subst hbq
    rw [merged_succ h] at hb
    cases hb
    exact Or.inr rfl
  · by_cases hbp : b = p
    · subst hbp
      rcases ht b P h.pred with h1 | h1
      · exact Or.inl ((reachable_merged h h1).1 hbq)
      · rw [h.jump] at h1; cases h1
    · rw [merged_other hbp hbq] at hb
      exact (ht b blk hb).imp (fun h1 => (reachable_merged h h1).1 hbq) id

/-- What merging preserves. -/
structure MergeResult (f g : Body) : Prop where
  same : ∀ (V σ : Type) (W : World V σ) (w : σ), SameBehaviour W f g w
  len : g.length = f.length
  inRange : InRange g
  valid : Valid f → Valid g
  tidy : Tidy f → Tidy g

theorem MergeResult.refl (hr : InRange f) : MergeResult f f :=
  ⟨fun _ _ _ w => sameBehaviour_refl w, rfl, hr, id, id⟩

theorem MergeResult.trans {h : Body} (a : MergeResult f g) (b : MergeResult g h) : MergeResult f h :=
  ⟨fun V σ W w => (a.same V σ W w).trans (b.same V σ W w), b.len.trans a.len, b.inRange, fun x => b.valid (a.valid x),
    fun x => b.tidy (a.tidy x)⟩

theorem mergeResult_merged {p q : Nat} {P Q : Block} (h : Mergeable f p q P Q) (hr : InRange f) :
    MergeResult f (merged f p q P Q) :=
  ⟨fun _ _ _ w => merge_same h w, merged_length, merged_inRange h hr, merged_valid h, tidy_merged h⟩

theorem mergeLoop_spec : ∀ (n k : Nat) (pending : List Nat) (f : Body) (incoming : List Nat) (any : Bool),
    (edges f).length = n → pending.length = k → InRange f → Counts f incoming → (∀ p ∈ pending, p < f.length) →
    (∀ p q, Joinable f p q → p ∈ pending) →
    ∃ g any', mergeLoop pending f incoming any = some (g, any') ∧ MergeResult f g ∧ (∀ p q, ¬ Joinable g p q) ∧
      (any' = true ∨ (g = f ∧ any' = any)) := by
  intro n
  induction n using Nat.strong_induction_on with
  | _ n ihn =>
  intro k
  induction k using Nat.strong_induction_on with
  | _ k ihk =>
  intro pending f incoming any hn hk hr hc hp hj
  cases pending with
  | nil =>
    refine ⟨f, any, by unfold mergeLoop; rfl, .refl hr, fun p q h => ?_, Or.inr ⟨rfl, rfl⟩⟩
    have := hj p q h
    simp at this
  | cons p pending =>
    obtain ⟨m, h1, h2⟩ := mergeableSuccessor_spec hr hc (hp p (by simp))
    unfold mergeLoop
    simp only [h1, Option.bind_eq_bind, Option.bind_some]
    cases m with
    | none =>
      simp only []
      simp only [List.length_cons] at hk
      refine ihk pending.length (by omega) pending f incoming any hn rfl hr hc (fun a ha => hp a (by simp [ha])) ?_
      intro a b hab
      rcases List.mem_cons.1 (hj a b hab) with rfl | h
      · exact absurd ((h2 b).2 hab) (by simp)
      · exact h
    | some q =>
      simp only []
      have hab := (h2 q).1 rfl
      obtain ⟨P, Q, h3, h4⟩ := mergeable_of_joinable hr hab
      simp only [h4, Option.bind_some]
      have hlen := merged_edges_length h3
      obtain ⟨g, any', g1, g2, g3, g4⟩ := ihn (edges (merged f p q P Q)).length (by omega) _ (pending ++ [p])
        (merged f p q P Q) (incoming.set q 0) true rfl rfl (merged_inRange h3 hr) (counts_merged h3 hc)
        (by
          intro a ha
          rw [merged_length]
          apply hp
          simp only [List.mem_append, List.mem_singleton] at ha
          simp only [List.mem_cons]
          exact ha.symm)
        (by
          intro a b hab'
          rcases joinable_merged h3 hab' with rfl | h
          · simp
          · rcases List.mem_cons.1 (hj a b h) with rfl | h
            · simp
            · simp [h])
      refine ⟨g, any', g1, (mergeResult_merged h3 hr).trans g2, g3, Or.inl ?_⟩
      rcases g4 with g4 | ⟨_, g4⟩ <;> exact g4

theorem mergeQueue_spec (hr : InRange f) {incoming : List Nat} (hc : Counts f incoming) :
    ∃ pending, mergeQueue f incoming = some pending ∧ (∀ p ∈ pending, p < f.length) ∧
      ∀ p q, Joinable f p q → p ∈ pending := by
  have key : ∀ l : List Nat, (∀ p ∈ l, p < f.length) →
      ∃ pending, (l.filterMapM fun p => (mergeableSuccessor f incoming p).map fun m => m.map fun _ => p) = some pending ∧
        (∀ p ∈ pending, p ∈ l) ∧ ∀ p ∈ l, ∀ q, Joinable f p q → p ∈ pending := by
    intro l
    induction l with
    | nil => intro _; exact ⟨[], rfl, by simp, by simp⟩
    | cons p l ih =>
      intro hl
      obtain ⟨m, h1, h2⟩ := mergeableSuccessor_spec hr hc (hl p (by simp))
      obtain ⟨pending, h3, h4, h5⟩ := ih fun a ha => hl a (by simp [ha])
      rw [List.filterMapM_cons]
      simp only [h1, Option.map_some, Option.bind_eq_bind, Option.bind_some, h3]
      cases m with
      | none =>
        refine ⟨pending, rfl, fun a ha => by simp [h4 a ha], ?_⟩
        intro a ha q hq
        rcases List.mem_cons.1 ha with rfl | ha
        · exact absurd ((h2 q).2 hq) (by simp)
        · exact h5 a ha q hq
      | some t =>
        refine ⟨p :: pending, rfl, ?_, ?_⟩
        · intro a ha
          rcases List.mem_cons.1 ha with rfl | ha
          · simp
          · simp [h4 a ha]
        · intro a ha q hq
          rcases List.mem_cons.1 ha with rfl | ha
          · simp
          · simp [h5 a ha q hq]
  obtain ⟨pending, h1, h2, h3⟩ := key (List.range f.length) (fun p hp => by simpa using hp)
  refine ⟨pending, h1, fun p hp => by simpa using h2 p hp, fun p q h => h3 p ?_ q h⟩
  obtain ⟨⟨P, h4, _⟩, _⟩ := h
  simpa using (List.getElem?_eq_some_iff.1 h4).1

/-! ### Removing what became unreachable -/

theorem Ordered.get {m : Nat → Option Nat} {order : List Nat} (h : Ordered f g m order) {i : Nat} {blk' : Block}
    (hi : g[i]? = some blk') : ∃ b blk, order[i]? = some b ∧ m b = some i ∧ f[b]? = some blk ∧
      retargetBlock m blk = some blk' := by
  obtain ⟨b, h1, blk, h2, h3⟩ := forall₂_get' h.blocks hi
  exact ⟨b, blk, h1, (h.number b i).2 h1, h2, h3⟩

theorem forall₂_mem {α β : Type} {R : α → β → Prop} {l : List α} {l' : List β} (h : List.Forall₂ R l l') {a : α}
    (ha : a ∈ l) : ∃ b ∈ l', R a b := by
  obtain ⟨i, hi⟩ := List.getElem?_of_mem ha
  obtain ⟨b, h1, h2⟩ := forall₂_get h hi
  exact ⟨b, List.mem_of_getElem? h1, h2⟩

theorem forall₂_mem' {α β : Type} {R : α → β → Prop} {l : List α} {l' : List β} (h : List.Forall₂ R l l') {b : β}
    (hb : b ∈ l') : ∃ a ∈ l, R a b := by
  obtain ⟨i, hi⟩ := List.getElem?_of_mem hb
  obtain ⟨a, h1, h2⟩ := forall₂_get' h hi
  exact ⟨a, List.mem_of_getElem? h1, h2⟩

theorem Ordered.reachable {m : Nat → Option Nat} {order : List Nat} (h : Ordered f g m order) {b : Nat}
    (hb : Reachable f b) : ∃ i, m b = some i ∧ Reachable g i := by
  induction hb with
  | refl => exact ⟨0, h.relabel.entry, .refl⟩
  | @tail b c _ he ih =>
    obtain ⟨i, hi, hri⟩ := ih
    obtain ⟨blk, h1, h2⟩ := he
    obtain ⟨blk1, blk', h3, h4, h5⟩ := h.relabel.block b i hi
    rw [h1] at h3; cases h3
    obtain ⟨j, hj, hmj⟩ := forall₂_mem (retarget_successors (retargetBlock_term h4)) h2
    exact ⟨j, hmj, hri.tail ⟨blk', h5, hj⟩⟩

/-- All blocks are reachable. -/
def AllReachable (f : Body) : Prop := ∀ b, b < f.length → Reachable f b

theorem Ordered.allReachable {m : Nat → Option Nat} {order : List Nat} (h : Ordered f g m order)
    (hr : ∀ b ∈ order, Reachable f b) : AllReachable g := by
  intro i hi
  obtain ⟨b, blk, h1, h2, _⟩ := h.get (List.getElem?_eq_getElem hi)
  obtain ⟨j, h3, h4⟩ := h.reachable (hr b (List.mem_of_getElem? h1))
  rw [h2] at h3
  cases h3
  exact h4

theorem Ordered.joinable {m : Nat → Option Nat} {order : List Nat} (h : Ordered f g m order)
    (hr : ∀ b blk, f[b]? = some blk → b ∈ order ∨ blk.term = .ret) {p q : Nat} (hj : Joinable g p q) :
    ∃ p' q', Joinable f p' q' := by
  obtain ⟨⟨P, h1, h2⟩, h3, h4, h5⟩ := hj
  obtain ⟨p', P', g1, g2, g3, g4⟩ := h.get h1
  have g5 := retargetBlock_term g4
  rw [h2] at g5
  have inj : ∀ {a b i}, m a = some i → m b = some i → a = b := by
    intro a b i ha hb
    have ha := (h.number a i).1 ha
    have hb := (h.number b i).1 hb
    rw [ha] at hb
    cases hb; rfl
  obtain ⟨q', g6, g7⟩ : ∃ q', P'.term = .goto q' ∧ m q' = some q := by
    cases ht : P'.term with
    | goto b =>
      rw [ht] at g5
      simp only [retarget, Option.map_eq_some_iff, Term.goto.injEq] at g5
      obtain ⟨_, hb, rfl⟩ := g5
      exact ⟨b, rfl, hb⟩
    | condBr c t e => rw [ht] at g5; simp only [retarget] at g5; split at g5 <;> cases g5
    | invoke c t e => rw [ht] at g5; simp only [retarget] at g5; split at g5 <;> cases g5
    | yield v b => rw [ht] at g5; simp [retarget] at g5
    | ret => rw [ht] at g5; cases g5
    | propagateError => rw [ht] at g5; cases g5
    | cleanupFailure => rw [ht] at g5; cases g5
  refine ⟨p', q', ⟨P', g3, g6⟩, ?_, ?_, ?_⟩
  · rintro rfl
    rw [h.relabel.entry] at g7
    cases g7
    exact h3 rfl
  · rintro rfl
    rw [g2] at g7
    cases g7
    exact h4 rfl
  · intro b blk hb hq
    rcases hr b blk hb with hbo | hbr
    · obtain ⟨i, hi⟩ := List.getElem?_of_mem hbo
      have hmi := (h.number b i).2 hi
      obtain ⟨blk1, blk', k1, k2, k3⟩ := h.relabel.block b i hmi
      rw [hb] at k1; cases k1
      obtain ⟨j, hj, hmj⟩ := forall₂_mem (retarget_successors (retargetBlock_term k2)) hq
      rw [g7] at hmj
      cases hmj
      have := h5 i blk' k3 hj
      subst this
      exact inj hmi g2
    · rw [hbr] at hq
      simp [Term.successors] at hq

theorem ordered_ne_nil {m : Nat → Option Nat} {order : List Nat} (h : Ordered f g m order) : g ≠ [] := by
  obtain ⟨blk', h1, _⟩ := forall₂_get h.blocks h.entry
  rintro rfl
  simp at h1

/-- `merge_blocks_into_predecessors`. -/
theorem mergeBlocks_spec (hr : InRange f) (hne : f ≠ []) : ∃ g, mergeBlocks f = some g ∧
    (∀ (V σ : Type) (W : World V σ) (w : σ), SameBehaviour W f g w) ∧ InRange g ∧ g ≠ [] ∧ (Valid f → Valid g) ∧
    (AllReachable f → AllReachable g ∧ ∀ p q, ¬ Joinable g p q) := by
  obtain ⟨incoming, h1, h2⟩ := incomingCounts_spec hr
  obtain ⟨pending, h3, h4, h5⟩ := mergeQueue_spec hr h2
  obtain ⟨f', any, h6, h7, h8, h9⟩ := mergeLoop_spec _ _ pending f incoming false rfl rfl hr h2 h4 h5
  unfold mergeBlocks
  simp only [h1, h3, h6, Option.bind_eq_bind, Option.bind_some]
  have hne' : f' ≠ [] := by
    intro h
    have := h7.len
    rw [h] at this
    exact hne (List.length_eq_zero_iff.1 this.symm)
  split
  · obtain ⟨g, m, order, k1, k2, k3, _⟩ := removeUnreachable_spec h7.inRange hne'
    refine ⟨g, k1, fun V σ W w => (h7.same V σ W w).trans (relabel_same k2.relabel w), k2.inRange, ordered_ne_nil k2,
      fun hv => k2.valid (h7.valid hv), fun hall => ⟨k2.allReachable fun b hb => (k3 b).1 hb, fun p q hj => ?_⟩⟩
    have htidy : Tidy f' := h7.tidy fun b blk hb => Or.inl (hall b (List.getElem?_eq_some_iff.1 hb).1)
    obtain ⟨p', q', hj'⟩ := k2.joinable (fun b blk hb => (htidy b blk hb).imp (fun h => (k3 b).2 h) id) hj
    exact h8 p' q' hj'
  · rename_i hany
    rcases h9 with h9 | ⟨rfl, _⟩
    · exact absurd h9 hany
    · exact ⟨f', rfl, h7.same, hr, hne, h7.valid, fun hall => ⟨hall, h8⟩⟩

end Ferlium.Edit
