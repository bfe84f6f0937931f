import Verif.Model.Verify
import Mathlib.Tactic

/-!
Failures in flight: what the executions are, and that the check is exact.
-/
namespace Ferlium.Verify

/-- The node is reached, by some choice of branches and outcomes, with so many failures that nothing has reported yet. -/
inductive Flow (F : Func) : Nat → Nat → Prop
  | start : Flow F 0 0
  | op {i o n} : F.nodes[i]? = some (.op o) → Flow F i n → Flow F (i + 1) n
  | goto {i t n} : F.nodes[i]? = some (.goto t) → Flow F i n → Flow F t n
  | yes {i t e n} : F.nodes[i]? = some (.cond t e) → Flow F i n → Flow F t n
  | no {i t e n} : F.nodes[i]? = some (.cond t e) → Flow F i n → Flow F e n
  | normal {i o t e n} : F.nodes[i]? = some (.invoke o t e) → Flow F i n → Flow F t n
  | error {i o t e n} : F.nodes[i]? = some (.invoke o t e) → Flow F i n → Flow F e (n + 1)
  | resume {i t n} : F.nodes[i]? = some (.yield t) → Flow F i n → Flow F t n

/-- Every way to go on fits the number of failures. -/
structure Fine (F : Func) (i n : Nat) : Prop where
  node : ∃ x, F.nodes[i]? = some x
  ret : F.nodes[i]? = some .ret → n = 0
  yield : ∀ t, F.nodes[i]? = some (.yield t) → n = 0
  propagate : F.nodes[i]? = some .propagate → n = 1
  poison : F.nodes[i]? = some .poison → n = 2
  invoke : ∀ o t e, F.nodes[i]? = some (.invoke o t e) → n < 2

theorem flow_edges {F : Func} {i n : Nat} {edges : List (Nat × Nat)} (h : flowOf F i n = some edges) (hf : Flow F i n) :
    ∀ e ∈ edges, Flow F e.1 e.2 := by
  unfold flowOf at h
  split at h
  · cases h
  · rename_i hn
    cases h
    simpa using Flow.op hn hf
  · rename_i hn
    cases h
    simpa using Flow.goto hn hf
  · rename_i hn
    cases h
    simpa using ⟨Flow.yes hn hf, Flow.no hn hf⟩
  · rename_i hn
    split at h
    · cases h
    · cases h
      simpa using ⟨Flow.normal hn hf, Flow.error hn hf⟩
  · rename_i hn
    split at h
    · cases h
      simpa using Flow.resume hn hf
    · cases h
  · split at h
    · cases h; simp
    · cases h
  · split at h
    · cases h; simp
    · cases h
  · split at h
    · cases h; simp
    · cases h

theorem fine_some {F : Func} {i n : Nat} (h : Fine F i n) : ∃ edges, flowOf F i n = some edges := by
  unfold flowOf
  obtain ⟨x, hx⟩ := h.node
  rw [hx]
  cases x with
  | op o => exact ⟨_, rfl⟩
  | goto t => exact ⟨_, rfl⟩
  | cond t e => exact ⟨_, rfl⟩
  | invoke o t e =>
    have := h.invoke o t e hx
    simp only
    rw [if_neg (by omega)]
    exact ⟨_, rfl⟩
  | yield t => simp only [h.yield t hx]; exact ⟨_, rfl⟩
  | ret => simp only [h.ret hx]; exact ⟨_, rfl⟩
  | propagate => simp only [h.propagate hx]; exact ⟨_, rfl⟩
  | poison => simp only [h.poison hx]; exact ⟨_, rfl⟩

theorem some_fine {F : Func} {i n : Nat} {edges : List (Nat × Nat)} (h : flowOf F i n = some edges) (hn : n ≤ 2) : Fine F i n := by
  unfold flowOf at h
  constructor
  · cases hx : F.nodes[i]? with
    | none => rw [hx] at h; cases h
    | some x => exact ⟨x, rfl⟩
  all_goals
    intros
    simp_all
  omega

/-! ### Soundness -/

def Known (inputs : List (Option Nat)) (i n : Nat) : Prop := inputs[i]? = some (some n)

theorem flowSpread_spec : ∀ (edges : List (Nat × Nat)) (inputs : List (Option Nat)) (work : List Nat)
    (r : List (Option Nat) × List Nat), flowSpread edges inputs work = some r →
    (∀ i n, Known inputs i n → Known r.1 i n) ∧ (∀ i n, Known r.1 i n → Known inputs i n ∨ i ∈ r.2) ∧
    (∀ i ∈ work, i ∈ r.2) ∧ ∀ e ∈ edges, Known r.1 e.1 e.2
  | [], inputs, work, r, h => by
    simp only [flowSpread, Option.some.injEq] at h
    subst h
    exact ⟨fun _ _ h => h, fun _ _ h => Or.inl h, fun _ h => h, by simp⟩
  | (t, n) :: rest, inputs, work, r, h => by
    simp only [flowSpread] at h
    split at h
    · cases h
    · rename_i ht
      have hlt := (List.getElem?_eq_some_iff.1 ht).1
      obtain ⟨h1, h2, h3, h4⟩ := flowSpread_spec rest _ _ r h
      have hset : ∀ i m, Known (inputs.set t (some n)) i m ↔ if t = i then n = m else Known inputs i m := by
        intro i m
        unfold Known
        rw [List.getElem?_set]
        by_cases e : t = i
        · subst e; simp [hlt]
        · simp [e]
      refine ⟨?_, ?_, fun i hi => h3 i (by simp [hi]), ?_⟩
      · intro i m hk
        refine h1 i m ((hset i m).2 ?_)
        rw [if_neg]
        · exact hk
        · rintro rfl
          unfold Known at hk
          rw [ht] at hk
          cases hk
      · intro i m hk
        rcases h2 i m hk with h5 | h5
        · rw [hset] at h5
          split at h5
          · rename_i e
            exact Or.inr (h3 i (by simp [e]))
          · exact Or.inl h5
        · exact Or.inr h5
      · intro e he
        rcases List.mem_cons.1 he with rfl | he
        · exact h1 _ _ ((hset _ _).2 (by simp))
        · exact h4 e he
    · rename_i n' ht
      split at h
      · rename_i e
        subst e
        obtain ⟨h1, h2, h3, h4⟩ := flowSpread_spec rest _ _ r h
        refine ⟨h1, h2, h3, ?_⟩
        intro e he
        rcases List.mem_cons.1 he with rfl | he
        · exact h1 _ _ ht
        · exact h4 e he
      · cases h

def FlowClosed (F : Func) (inputs : List (Option Nat)) (work : List Nat) : Prop :=
  ∀ i n, Known inputs i n → i ∈ work ∨ ∃ edges, flowOf F i n = some edges ∧ ∀ e ∈ edges, Known inputs e.1 e.2

theorem flowLoop_spec {F : Func} : ∀ (k : Nat) (inputs : List (Option Nat)) (work : List Nat) (r : List (Option Nat)),
    FlowClosed F inputs work → flowLoop F k inputs work = some r →
    FlowClosed F r [] ∧ ∀ i n, Known inputs i n → Known r i n
  | k, inputs, [], r, hc, h => by
    have : r = inputs := by cases k <;> simpa [flowLoop] using h.symm
    subst this
    exact ⟨hc, fun _ _ h => h⟩
  | 0, _, _ :: _, r, _, h => by simp [flowLoop] at h
  | k + 1, inputs, i :: work, r, hc, h => by
    rw [flowLoop, Option.bind_eq_some_iff] at h
    obtain ⟨n, h1, h⟩ := h
    simp only [Option.bind_eq_some_iff] at h
    obtain ⟨edges, h2, r1, h3, h4⟩ := h
    have hk : Known inputs i n := by
      unfold Known
      cases hi : inputs[i]? with
      | none => rw [hi] at h1; cases h1
      | some x => rw [hi] at h1; simp only [Option.join_some] at h1; rw [h1]
    obtain ⟨h5, h6, h7, h8⟩ := flowSpread_spec edges inputs work r1 h3
    have hc' : FlowClosed F r1.1 r1.2 := by
      intro i' n' hk'
      rcases h6 i' n' hk' with h9 | h9
      · by_cases e : i' = i
        · subst e
          have : n' = n := by
            unfold Known at h9 hk
            rw [hk] at h9
            cases h9; rfl
          subst this
          exact Or.inr ⟨edges, h2, h8⟩
        · rcases hc i' n' h9 with h10 | ⟨ed, h10, h11⟩
          · rcases List.mem_cons.1 h10 with h10 | h10
            · exact absurd h10 e
            · exact Or.inl (h7 _ h10)
          · exact Or.inr ⟨ed, h10, fun x hx => h5 _ _ (h11 x hx)⟩
      · exact Or.inl h9
    obtain ⟨h9, h10⟩ := flowLoop_spec k r1.1 r1.2 r hc' h4
    exact ⟨h9, fun i' n' hk' => h10 _ _ (h5 _ _ hk')⟩

theorem known_start {F : Func} (hne : 0 < F.nodes.length) (i n : Nat) :
    Known ((List.replicate F.nodes.length none).set 0 (some 0)) i n ↔ i = 0 ∧ n = 0 := by
  unfold Known
  cases i with
  | zero => simp [hne, eq_comm]
  | succ i =>
    simp only [List.getElem?_set, List.getElem?_replicate]
    simp

theorem flow_nonempty {F : Func} (h : flowVerified F) : 0 < F.nodes.length := by
  obtain ⟨k, r, hk⟩ := h
  by_contra hn
  have : F.nodes.length = 0 := by omega
  rw [this] at hk
  cases k <;> simp [flowLoop] at hk

theorem flow_known {F : Func} (h : flowVerified F) : ∃ r, FlowClosed F r [] ∧ ∀ i n, Flow F i n → Known r i n ∧ n ≤ 2 := by
  have hne := flow_nonempty h
  obtain ⟨k, r, hk⟩ := h
  obtain ⟨h1, h2⟩ := flowLoop_spec (F := F) k _ _ r (fun i n hk => by
    rw [known_start hne] at hk
    exact Or.inl (by simp [hk.1])) hk
  refine ⟨r, h1, ?_⟩
  have next : ∀ {i n}, Known r i n → ∃ edges, flowOf F i n = some edges ∧ ∀ e ∈ edges, Known r e.1 e.2 := by
    intro i n hk
    rcases h1 i n hk with h3 | h3
    · cases h3
    · exact h3
  intro i n hf
  induction hf with
  | start => exact ⟨h2 0 0 ((known_start hne 0 0).2 ⟨rfl, rfl⟩), by omega⟩
  | op hn _ ih =>
    obtain ⟨ed, h3, h4⟩ := next ih.1
    simp only [flowOf, hn, Option.some.injEq] at h3
    subst h3
    exact ⟨h4 (_, _) (by simp), ih.2⟩
  | goto hn _ ih =>
    obtain ⟨ed, h3, h4⟩ := next ih.1
    simp only [flowOf, hn, Option.some.injEq] at h3
    subst h3
    exact ⟨h4 (_, _) (by simp), ih.2⟩
  | yes hn _ ih =>
    obtain ⟨ed, h3, h4⟩ := next ih.1
    simp only [flowOf, hn, Option.some.injEq] at h3
    subst h3
    exact ⟨h4 (_, _) (List.mem_cons_self ..), ih.2⟩
  | no hn _ ih =>
    obtain ⟨ed, h3, h4⟩ := next ih.1
    simp only [flowOf, hn, Option.some.injEq] at h3
    subst h3
    exact ⟨h4 (_, _) (List.mem_cons_of_mem _ (List.mem_cons_self ..)), ih.2⟩
  | normal hn _ ih =>
    obtain ⟨ed, h3, h4⟩ := next ih.1
    simp only [flowOf, hn] at h3
    split at h3
    · cases h3
    · cases h3
      exact ⟨h4 (_, _) (List.mem_cons_self ..), ih.2⟩
  | error hn _ ih =>
    obtain ⟨ed, h3, h4⟩ := next ih.1
    simp only [flowOf, hn] at h3
    split at h3
    · cases h3
    · cases h3
      exact ⟨h4 (_, _) (List.mem_cons_of_mem _ (List.mem_cons_self ..)), by have := ih.2; omega⟩
  | resume hn _ ih =>
    obtain ⟨ed, h3, h4⟩ := next ih.1
    simp only [flowOf, hn] at h3
    split at h3
    · cases h3
      exact ⟨h4 (_, _) (List.mem_cons_self ..), ih.2⟩
    · cases h3

theorem flow_sound {F : Func} (h : flowVerified F) :
    (∀ i n, Flow F i n → Fine F i n) ∧ ∀ i n n', Flow F i n → Flow F i n' → n = n' := by
  obtain ⟨r, h1, h2⟩ := flow_known h
  refine ⟨?_, ?_⟩
  · intro i n hf
    obtain ⟨h3, h4⟩ := h2 i n hf
    rcases h1 i n h3 with h5 | ⟨ed, h5, _⟩
    · cases h5
    · exact some_fine h5 h4
  · intro i n n' hf hf'
    have h3 := (h2 i n hf).1
    have h4 := (h2 i n' hf').1
    unfold Known at h3 h4
    rw [h3] at h4
    cases h4; rfl

/-! ### Completeness -/

/-- All that is known is so in some execution, and what is waiting is known. -/
structure FlowInv (F : Func) (inputs : List (Option Nat)) (work : List Nat) : Prop where
  len : inputs.length = F.nodes.length
  flow : ∀ i n, Known inputs i n → Flow F i n
  work : ∀ i ∈ work, ∃ n, Known inputs i n

theorem flowSpread_total {F : Func} (hfine : ∀ i n, Flow F i n → Fine F i n)
    (huniq : ∀ i n n', Flow F i n → Flow F i n' → n = n') : ∀ (edges : List (Nat × Nat)) (inputs : List (Option Nat))
    (work : List Nat), FlowInv F inputs work → (∀ e ∈ edges, Flow F e.1 e.2) →
    ∃ r, flowSpread edges inputs work = some r ∧ FlowInv F r.1 r.2 ∧
      r.1.countP Option.isNone + r.2.length = inputs.countP Option.isNone + work.length
  | [], inputs, work, hi, _ => ⟨(inputs, work), rfl, hi, rfl⟩
  | (t, n) :: rest, inputs, work, hi, he => by
    have hf : Flow F t n := he (t, n) (by simp)
    have hlt : t < inputs.length := by
      rw [hi.len]
      obtain ⟨x, hx⟩ := (hfine t n hf).node
      exact (List.getElem?_eq_some_iff.1 hx).1
    simp only [flowSpread]
    cases ht : inputs[t]? with
    | none => rw [List.getElem?_eq_none_iff] at ht; omega
    | some x =>
      have hx : inputs[t] = x := (List.getElem?_eq_some_iff.1 ht).2
      cases x with
      | none =>
        simp only
        have hset : ∀ i m, Known (inputs.set t (some n)) i m ↔ if t = i then n = m else Known inputs i m := by
          intro i m
          unfold Known
          rw [List.getElem?_set]
          by_cases e : t = i
          · subst e; simp [hlt]
          · simp [e]
        have hi' : FlowInv F (inputs.set t (some n)) (work ++ [t]) := by
          refine ⟨by simp [hi.len], ?_, ?_⟩
          · intro i m hk
            rw [hset] at hk
            split at hk
            · rename_i e
              rw [← e, ← hk]; exact hf
            · exact hi.flow i m hk
          · intro i hmem
            by_cases e : t = i
            · exact ⟨n, (hset i n).2 (by simp [e])⟩
            · rcases List.mem_append.1 hmem with h | h
              · obtain ⟨m, hm⟩ := hi.work i h
                exact ⟨m, (hset i m).2 (by rw [if_neg e]; exact hm)⟩
              · simp at h
                exact absurd h.symm e
        obtain ⟨r, h1, h2, h3⟩ := flowSpread_total hfine huniq rest _ _ hi' (fun e h => he e (by simp [h]))
        refine ⟨r, h1, h2, ?_⟩
        rw [h3, List.countP_set hlt, hx]
        have hpos : 0 < inputs.countP Option.isNone :=
          List.countP_pos_iff.2 ⟨none, by rw [← hx]; exact List.getElem_mem hlt, rfl⟩
        simp only [Option.isNone_none, if_true, Option.isNone_some, Bool.false_eq_true, if_false, List.length_append,
          List.length_singleton]
        omega
      | some n' =>
        simp only
        have : n' = n := huniq t n' n (hi.flow t n' ht) hf
        rw [if_pos this]
        exact flowSpread_total hfine huniq rest _ _ hi (fun e h => he e (by simp [h]))

theorem flowLoop_total {F : Func} (hfine : ∀ i n, Flow F i n → Fine F i n)
    (huniq : ∀ i n n', Flow F i n → Flow F i n' → n = n') : ∀ (k : Nat) (inputs : List (Option Nat)) (work : List Nat),
    FlowInv F inputs work → inputs.countP Option.isNone + work.length ≤ k → ∃ r, flowLoop F k inputs work = some r
  | k, inputs, [], _, _ => ⟨inputs, by cases k <;> rfl⟩
  | 0, inputs, i :: work, _, hk => by simp at hk
  | k + 1, inputs, i :: work, hi, hk => by
    obtain ⟨n, hn⟩ := hi.work i (by simp)
    have hf := hi.flow i n hn
    obtain ⟨edges, h1⟩ := fine_some (hfine i n hf)
    have hi' : FlowInv F inputs work := ⟨hi.len, hi.flow, fun j hj => hi.work j (by simp [hj])⟩
    obtain ⟨r, h2, h3, h4⟩ := flowSpread_total hfine huniq edges inputs work hi' (flow_edges h1 hf)
    obtain ⟨r', h5⟩ := flowLoop_total hfine huniq k r.1 r.2 h3 (by
      simp only [List.length_cons] at hk
      omega)
    refine ⟨r', ?_⟩
    rw [flowLoop]
    unfold Known at hn
    simp only [hn, Option.join_some, Option.bind_some, h1, h2, h5]

theorem flow_complete {F : Func} (hfine : ∀ i n, Flow F i n → Fine F i n)
    (huniq : ∀ i n n', Flow F i n → Flow F i n' → n = n') : flowVerified F := by
  have hne : 0 < F.nodes.length := by
    obtain ⟨x, hx⟩ := (hfine 0 0 .start).node
    have := (List.getElem?_eq_some_iff.1 hx).1
    omega
  obtain ⟨r, h⟩ := flowLoop_total hfine huniq _ ((List.replicate F.nodes.length none).set 0 (some 0)) [0]
    ⟨by simp, fun i n hk => by rw [known_start hne] at hk; rw [hk.1, hk.2]; exact .start,
      fun i hi => ⟨0, (known_start hne i 0).2 ⟨by simpa using hi, rfl⟩⟩⟩ le_rfl
  exact ⟨_, r, h⟩

end Ferlium.Verify
