import Verif.Proofs.VerifyOps

/-!
The fixed point: what the loop ends with covers every execution.
-/
namespace Ferlium.Verify

/-- The second state describes all that the first does. -/
structure State.Le (s s' : State) : Prop where
  marks : s.marks = s'.marks
  opens : s.opens = s'.opens
  leaf : ∀ {r : Nat} {T' : Tree} {q : List Nat} {a' : Leaf}, s'.roots[r]? = some T' → leafOn q T' = some a' →
    ∃ T a, s.roots[r]? = some T ∧ leafOn q T = some a ∧ a.le a'

theorem State.Le.refl (s : State) : s.Le s := ⟨rfl, rfl, fun h h' => ⟨_, _, h, h', Leaf.le_refl _⟩⟩

theorem State.Le.trans {s s' s'' : State} (h : s.Le s') (h' : s'.Le s'') : s.Le s'' := by
  refine ⟨h.marks.trans h'.marks, h.opens.trans h'.opens, ?_⟩
  intro r T q a h1 h2
  obtain ⟨T1, a1, h3, h4, h5⟩ := h'.leaf h1 h2
  obtain ⟨T2, a2, h6, h7, h8⟩ := h.leaf h3 h4
  exact ⟨T2, a2, h6, h7, h8.trans h5⟩

theorem Rel.mono {F : Func} {s s' : State} {m : Mem} (h : Rel F s m) (hle : s.Le s') (hg : Good F s') : Rel F s' m := by
  refine ⟨hg, ?_, ?_, ?_, ?_, h.kept, ?_, ?_⟩
  · intro r T q a h1 h2 h3
    obtain ⟨T1, a1, h4, h5, h6⟩ := hle.leaf h1 h2
    exact h6.un (h.out h4 h5 h3)
  · intro r T q a h1 h2 h3 h4
    obtain ⟨T1, a1, h5, h6, h7⟩ := hle.leaf h1 h2
    exact h7.ab (h.empty h5 h6 h3 h4)
  · intro r T q a h1 h2 h3 h4
    obtain ⟨T1, a1, h5, h6, h7⟩ := hle.leaf h1 h2
    exact (h.filled h5 h6 h3 h4).imp h7.ln h7.ld
  · intro t r q ht
    obtain ⟨h1, R, T, a, h2, h3, h4, h5, h6⟩ := h.tok ht
    obtain ⟨T', h7, h8, _⟩ := hg.has h2
    have h9 := leafOn_ends q h8
    rw [room_ends q R h6] at h9
    obtain ⟨a', ha'⟩ := Option.isSome_iff_exists.1 h9
    obtain ⟨T1, a1, h10, h11, h12⟩ := hle.leaf h7 ha'
    rw [h3, Option.some.injEq] at h10
    subst h10
    rw [h4, Option.some.injEq] at h11
    subst h11
    exact ⟨h1, R, T', a', h2, h7, ha', h12.ld h5, h6⟩
  · intro k
    rw [← hle.marks]; exact h.marks k
  · intro j
    rw [← hle.opens]; exact h.opens j

/-! ### Good states -/

theorem Good.change {F : Func} {s : State} (h : Good F s) {r : Nat} {p : List Nat} {f : Tree → Tree}
    (hf : ∀ X x, s.get r p = some X → X.Of x → (f X).Of x) :
    Good F (s.upd r fun t => match Tree.modify f p t with | some t' => t'.recompute | none => t) := by
  refine h.upd ?_
  intro T R hT hR hof hj
  cases hX : Tree.atPath p T with
  | none => simp only [modify_none _ _ _ hX]; exact ⟨hof, hj⟩
  | some X =>
    obtain ⟨x, _, hx⟩ := at_some p hof hX
    have hfx := hf X x (by simp only [State.get, hT, Option.bind_some, hX]) hx
    rw [← hx.ty] at hfx
    obtain ⟨T', e1, e2, e3, _⟩ := change_spec hof hX hfx
    simp only [e1]
    exact ⟨e2, e3⟩

theorem Good.setPath {F : Func} {s : State} (h : Good F s) {r : Nat} {p : List Nat} {a : Leaf} :
    Good F (s.upd r (Tree.setPath p a)) :=
  Good.change (f := Tree.setAll a) h fun _ _ _ hx => setAll_of hx

theorem Good.replace {F : Func} {s : State} (h : Good F s) {r : Nat} {p : List Nat} {X Y : Tree} (hX : s.get r p = some X)
    (hY : Y.Of X.ty) : Good F (s.upd r fun t => t.replace p Y) := by
  refine Good.change (f := fun _ => Y) h fun X' x hX' hx => ?_
  rw [hX, Option.some.injEq] at hX'
  subst hX'
  rw [← hx.ty]
  exact hY

theorem Good.markOpaque {F : Func} {s : State} (h : Good F s) {r : Nat} {p : List Nat} : Good F (s.markOpaque r p) := by
  refine h.upd ?_
  intro T R hT hR hof hj
  split
  · rename_i X hX
    obtain ⟨x, _, hx⟩ := at_some _ hof hX
    obtain ⟨T', e1, e2, e3, _⟩ := change_spec (f := fun _ => live X.ty) hof hX (live_of _)
    simp only [Tree.replace, e1]
    exact ⟨e2, e3⟩
  · exact ⟨hof, hj⟩

theorem Good.store {F : Func} {s s' : State} (h : Good F s) {needs : Bool} {dst : Place} (hs : s.store needs dst = some s') :
    Good F s' := by
  cases dst with
  | outside =>
    simp only [State.store, Option.some.injEq] at hs
    subst hs
    exact h
  | root r p =>
    simp only [State.store] at hs
    cases hX : s.get r p with
    | none =>
      rw [hX] at hs
      simp only [Option.some.injEq] at hs
      subst hs
      exact h.markOpaque
    | some X =>
      rw [hX] at hs
      simp only at hs
      split at hs
      · simp only [Option.some.injEq] at hs
        subst hs
        refine h.replace hX ?_
        split
        · exact live_of _
        · exact shaped_of _ _
      · cases hs

theorem Good.get {F : Func} {s : State} (h : Good F s) {r : Nat} {p : List Nat} {X : Tree} (hX : s.get r p = some X) :
    X.Of X.ty := by
  simp only [State.get, Option.bind_eq_some_iff] at hX
  obtain ⟨T, h1, h2⟩ := hX
  obtain ⟨R, _, h3, _⟩ := h.ty h1
  obtain ⟨x, _, h4⟩ := at_some p h3 h2
  rw [h4.ty]
  exact h4

theorem Good.transport {F : Func} {s s' : State} (h : Good F s) {b : Bool} {src dst : Place}
    (hs : s.transport b src dst = some s') : Good F s' := by
  rw [transport_eq] at hs
  simp only [Option.bind_eq_some_iff, Option.map_eq_some_iff] at hs
  obtain ⟨sv, h1, s1, h2, rfl⟩ := hs
  have hsv := (source_spec h1).1
  have h3 : Good F s1 := by
    cases dst with
    | outside =>
      simp only [landing, Option.some.injEq] at h2
      subst h2
      exact h
    | root r p =>
      simp only [landing] at h2
      cases hX : s.get r p with
      | none =>
        rw [hX] at h2
        simp only [Option.some.injEq] at h2
        subst h2
        exact h.markOpaque
      | some X =>
        rw [hX] at h2
        simp only at h2
        split at h2
        · simp only [Option.some.injEq] at h2
          subst h2
          refine h.replace hX ?_
          have key : ∀ b : Bool, (if b = true then live X.ty else shaped .LN X.ty).Of X.ty := by
            intro b
            split
            · exact live_of _
            · exact shaped_of _ _
          cases sv with
          | none => exact key b
          | some v =>
            simp only
            split
            · rename_i hty
              obtain ⟨r0, p0, _, hv, _⟩ := hsv v rfl
              rw [← hty]
              exact h.get hv
            · exact key b
        · cases h2
  cases src with
  | outside => exact h3
  | root r p =>
    simp only [leaving]
    split
    · exact h3.setPath
    · exact h3

theorem Good.consumeAll {F : Func} : ∀ (ps : List Place) {s s' : State}, Good F s → s.consumeAll ps = some s' → Good F s'
  | [], s, s', h, hs => by
    simp only [State.consumeAll, Option.some.injEq] at hs
    subst hs
    exact h
  | p :: rest, s, s', h, hs => by
    simp only [State.consumeAll, Option.bind_eq_some_iff] at hs
    obtain ⟨s1, h1, h2⟩ := hs
    refine Good.consumeAll rest ?_ h2
    cases p with
    | outside =>
      simp only [State.consume, Option.some.injEq] at h1
      subst h1
      exact h
    | root r p =>
      simp only [State.consume] at h1
      split at h1
      · cases h1
      · split at h1
        · rw [Option.some.injEq] at h1
          subst h1
          exact h.setPath
        · cases h1

theorem reclaim_good {F : Func} : ∀ (snap : List Bool) (ts ts' : List Tree), reclaim snap ts = some ts' →
    ts'.length = ts.length ∧ ∀ (r : Nat) (T' : Tree), ts'[r]? = some T' → ∃ T : Tree, ts[r]? = some T ∧
      (T' = T ∨ T' = T.setAll .UN)
  | [], ts, ts', h => by
    simp only [reclaim, Option.some.injEq] at h
    subst h
    exact ⟨rfl, fun r T hT => ⟨T, hT, Or.inl rfl⟩⟩
  | b :: snap, [], ts', h => by
    have : reclaim (b :: snap) [] = some [] := by cases b <;> rfl
    rw [this, Option.some.injEq] at h
    subst h
    exact ⟨rfl, fun r T hT => ⟨T, hT, Or.inl rfl⟩⟩
  | true :: snap, t :: ts, ts', h => by
    simp only [reclaim, Option.map_eq_some_iff] at h
    obtain ⟨ts1, h1, rfl⟩ := h
    obtain ⟨h2, h3⟩ := reclaim_good (F := F) snap ts ts1 h1
    refine ⟨by simp [h2], ?_⟩
    intro r T' hT
    cases r with
    | zero =>
      simp only [List.getElem?_cons_zero, Option.some.injEq] at hT
      subst hT
      exact ⟨t, by simp, Or.inl rfl⟩
    | succ r => simpa using h3 r T' (by simpa using hT)
  | false :: snap, t :: ts, ts', h => by
    simp only [reclaim] at h
    split at h
    · cases h
    · simp only [Option.map_eq_some_iff] at h
      obtain ⟨ts1, h1, rfl⟩ := h
      obtain ⟨h2, h3⟩ := reclaim_good (F := F) snap ts ts1 h1
      refine ⟨by simp [h2], ?_⟩
      intro r T' hT
      cases r with
      | zero =>
        simp only [List.getElem?_cons_zero, Option.some.injEq] at hT
        subst hT
        exact ⟨t, by simp, Or.inr rfl⟩
      | succ r => simpa using h3 r T' (by simpa using hT)

theorem Good.op {F : Func} {s : State} (h : Good F s) {o : Op} {r : State × State} (hs : transferOp o s = some r) :
    Good F r.1 ∧ Good F r.2 := by
  cases o with
  | alloca a =>
    simp only [transferOp, Option.some.injEq] at hs
    subst hs
    exact ⟨h.upd (fun _ _ g _ => ⟨setAll_of g, setAll_joined _ _⟩), h⟩
  | store needs dst =>
    simp only [transferOp, Option.map_eq_some_iff] at hs
    obtain ⟨s1, h1, rfl⟩ := hs
    exact ⟨h.store h1, h⟩
  | memcpy src dst =>
    simp only [transferOp] at hs
    split at hs
    · simp only [Option.map_eq_some_iff] at hs
      obtain ⟨s1, h1, rfl⟩ := hs
      exact ⟨h.transport h1, h⟩
    · cases hs
  | move src dst =>
    simp only [transferOp, Option.map_eq_some_iff] at hs
    obtain ⟨s1, h1, rfl⟩ := hs
    exact ⟨h.transport h1, h⟩
  | clear dst =>
    simp only [transferOp, Option.map_eq_some_iff] at hs
    obtain ⟨s1, h1, rfl⟩ := hs
    refine ⟨?_, h⟩
    cases dst with
    | outside =>
      simp only [State.clear, Option.some.injEq] at h1
      subst h1
      exact h
    | root r p =>
      simp only [State.clear] at h1
      split at h1
      · rw [Option.some.injEq] at h1
        subst h1
        exact h
      · split at h1
        · rw [Option.some.injEq] at h1
          subst h1
          exact h.setPath
        · cases h1
  | drop dst =>
    simp only [transferOp, Option.map_eq_some_iff] at hs
    obtain ⟨s1, h1, rfl⟩ := hs
    have : Good F s1 := by
      cases dst with
      | outside =>
        simp only [State.drop, Option.some.injEq] at h1
        subst h1
        exact h
      | root r p =>
        simp only [State.drop] at h1
        split at h1
        · cases h1
        · split at h1
          · cases h1
          · rw [Option.some.injEq] at h1
            subst h1
            exact h.setPath
    exact ⟨this, this⟩
  | make dst =>
    simp only [transferOp, Option.map_eq_some_iff] at hs
    obtain ⟨s1, h1, rfl⟩ := hs
    exact ⟨h.store h1, h⟩
  | call owned dst =>
    simp only [transferOp, Option.bind_eq_some_iff, Option.map_eq_some_iff] at hs
    obtain ⟨s1, h1, s2, h2, rfl⟩ := hs
    have h3 := Good.consumeAll owned h h1
    exact ⟨h3.store h2, h3⟩
  | close captures =>
    simp only [transferOp, Option.map_eq_some_iff] at hs
    obtain ⟨s1, h1, rfl⟩ := hs
    exact ⟨Good.consumeAll captures h h1, h⟩
  | save k =>
    simp only [transferOp, Option.map_eq_some_iff] at hs
    obtain ⟨s1, h1, rfl⟩ := hs
    refine ⟨?_, h⟩
    simp only [State.save] at h1
    split at h1
    · rw [Option.some.injEq] at h1
      subst h1
      exact ⟨h.len, h.tree⟩
    · cases h1
  | restore k =>
    simp only [transferOp, Option.map_eq_some_iff] at hs
    obtain ⟨s1, h1, rfl⟩ := hs
    refine ⟨?_, h⟩
    simp only [State.restore, Option.bind_eq_some_iff, Option.map_eq_some_iff] at h1
    obtain ⟨snap, _, ts, h2, rfl⟩ := h1
    obtain ⟨h3, h4⟩ := reclaim_good (F := F) snap s.roots ts h2
    refine ⟨by rw [h3, h.len], ?_⟩
    intro r T R hT hR
    obtain ⟨T0, h5, rfl | rfl⟩ := h4 r T hT
    · exact h.tree h5 hR
    · exact ⟨setAll_of (h.tree h5 hR).1, setAll_joined _ _⟩
  | project j =>
    simp only [transferOp] at hs
    split at hs
    · cases hs
    · rw [Option.some.injEq] at hs
      subst hs
      exact ⟨⟨h.len, h.tree⟩, h⟩
  | endProject j =>
    simp only [transferOp] at hs
    split at hs
    · rw [Option.some.injEq] at hs
      subst hs
      exact ⟨⟨h.len, h.tree⟩, ⟨h.len, h.tree⟩⟩
    · cases hs
  | nop =>
    simp only [transferOp, Option.some.injEq] at hs
    subst hs
    exact ⟨h, h⟩

theorem Good.transfer {F : Func} {s : State} (h : Good F s) {i : Nat} {edges : List (Nat × State)}
    (hs : transfer F i s = some edges) : ∀ e ∈ edges, Good F e.2 := by
  unfold Verify.transfer at hs
  split at hs
  · cases hs
  · simp only [Option.map_eq_some_iff] at hs
    obtain ⟨r, h1, rfl⟩ := hs
    obtain ⟨h2, _⟩ := h.op h1
    simpa using h2
  · cases hs; simpa using h
  · cases hs; simpa using h
  · simp only [Option.map_eq_some_iff] at hs
    obtain ⟨r, h1, rfl⟩ := hs
    obtain ⟨h2, h3⟩ := h.op h1
    simpa using ⟨h2, h3⟩
  · cases hs; simpa using h
  · split at hs
    · cases hs; simp
    · cases hs
  · split at hs
    · cases hs; simp
    · cases hs
  · cases hs; simp

/-! ### Merging -/

theorem joinRoots_spec : ∀ (ts ts' us : List Tree), joinRoots ts ts' = some us → ts.length = ts'.length →
    us.length = ts.length ∧ ∀ (r : Nat) (U : Tree), us[r]? = some U →
      ∃ T T' : Tree, ts[r]? = some T ∧ ts'[r]? = some T' ∧ U = T.join T'
  | [], [], us, h, _ => by
    simp only [joinRoots, Option.some.injEq] at h
    subst h
    exact ⟨rfl, by simp⟩
  | t :: ts, t' :: ts', us, h, hl => by
    simp only [joinRoots] at h
    split at h
    · simp only [Option.map_eq_some_iff] at h
      obtain ⟨us1, h1, rfl⟩ := h
      obtain ⟨h2, h3⟩ := joinRoots_spec ts ts' us1 h1 (by simpa using hl)
      refine ⟨by simp [h2], ?_⟩
      intro r U hU
      cases r with
      | zero =>
        simp only [List.getElem?_cons_zero, Option.some.injEq] at hU
        subst hU
        exact ⟨t, t', by simp, by simp, rfl⟩
      | succ r => simpa using h3 r U (by simpa using hU)
    · cases h
  | [], t' :: ts', _, _, hl => by simp at hl
  | t :: ts, [], _, _, hl => by simp at hl

theorem join_state {F : Func} {a s : State} {us : List Tree} (ha : Good F a) (hs : Good F s) (hm : a.matches s = true)
    (hj : joinRoots a.roots s.roots = some us) :
    Good F { a with roots := us } ∧ a.Le { a with roots := us } ∧ s.Le { a with roots := us } := by
  obtain ⟨h1, h2⟩ := joinRoots_spec _ _ _ hj (by rw [ha.len, hs.len])
  have hmm : a.marks = s.marks ∧ a.opens = s.opens := by
    simp only [State.matches, Bool.and_eq_true, decide_eq_true_eq] at hm
    exact hm.1
  refine ⟨⟨by rw [h1, ha.len], ?_⟩, ⟨rfl, rfl, ?_⟩, ⟨hmm.1.symm, hmm.2.symm, ?_⟩⟩
  · intro r U R hU hR
    obtain ⟨T, T', h3, h4, rfl⟩ := h2 r U hU
    obtain ⟨h5, h6⟩ := ha.tree h3 hR
    obtain ⟨h7, h8⟩ := hs.tree h4 hR
    exact ⟨join_of h5 h7, join_joined h5 h7 h6 h8⟩
  · intro r U q x hU hx
    obtain ⟨T, T', h3, h4, rfl⟩ := h2 r U hU
    obtain ⟨R, hR, h5, _⟩ := ha.ty h3
    obtain ⟨h7, _⟩ := hs.tree h4 hR
    obtain ⟨b, c, h8, _, h9, _⟩ := join_leaf q h5 h7 hx
    exact ⟨T, b, h3, h8, h9⟩
  · intro r U q x hU hx
    obtain ⟨T, T', h3, h4, rfl⟩ := h2 r U hU
    obtain ⟨R, hR, h5, _⟩ := ha.ty h3
    obtain ⟨h7, _⟩ := hs.tree h4 hR
    obtain ⟨b, c, _, h8, _, h9⟩ := join_leaf q h5 h7 hx
    exact ⟨T', c, h4, h8, h9⟩

theorem merge_spec {F : Func} {s : State} (hs : Good F s) : ∀ (alts : List State) (r : List State × Nat × Bool),
    (∀ a ∈ alts, Good F a) → merge alts s = some r →
    (∃ x, r.1[r.2.1]? = some x ∧ s.Le x) ∧
    (∀ (a : Nat) (y : State), r.1[a]? = some y → alts[a]? = some y ∨ (a = r.2.1 ∧ r.2.2 = true)) ∧
    (∀ (a : Nat) (y : State), alts[a]? = some y → ∃ y', r.1[a]? = some y' ∧ y.Le y') ∧ ∀ y ∈ r.1, Good F y
  | [], r, _, h => by
    simp only [merge, Option.some.injEq] at h
    subst h
    refine ⟨⟨s, by simp, State.Le.refl s⟩, ?_, by simp, by simpa using hs⟩
    intro a y hy
    cases a with
    | zero => exact Or.inr ⟨rfl, rfl⟩
    | succ a => simp at hy
  | b :: rest, r, hg, h => by
    simp only [merge] at h
    split at h
    · rename_i hm
      simp only [Option.map_eq_some_iff] at h
      obtain ⟨us, h1, rfl⟩ := h
      obtain ⟨h2, h3, h4⟩ := join_state (hg b (by simp)) hs hm h1
      refine ⟨⟨_, by simp only [List.getElem?_cons_zero], h4⟩, ?_, ?_, ?_⟩
      · intro a y hy
        cases a with
        | zero =>
          simp only [List.getElem?_cons_zero, Option.some.injEq] at hy
          by_cases he : us = b.roots
          · left
            subst hy
            rw [he]
            rfl
          · exact Or.inr ⟨rfl, by simpa using he⟩
        | succ a => exact Or.inl (by simpa using hy)
      · intro a y hy
        cases a with
        | zero =>
          simp only [List.getElem?_cons_zero, Option.some.injEq] at hy
          subst hy
          exact ⟨_, by simp only [List.getElem?_cons_zero], h3⟩
        | succ a => exact ⟨y, by simpa using hy, State.Le.refl y⟩
      · intro y hy
        rcases List.mem_cons.1 hy with rfl | hy
        · exact h2
        · exact hg y (by simp [hy])
    · simp only [Option.map_eq_some_iff] at h
      obtain ⟨r1, h1, rfl⟩ := h
      obtain ⟨⟨x, h2, h3⟩, h4, h5, h6⟩ := merge_spec hs rest r1 (fun a ha => hg a (by simp [ha])) h1
      refine ⟨⟨x, by simpa using h2, h3⟩, ?_, ?_, ?_⟩
      · intro a y hy
        cases a with
        | zero => exact Or.inl (by simpa using hy)
        | succ a =>
          rcases h4 a y (by simpa using hy) with h7 | ⟨h7, h8⟩
          · exact Or.inl (by simpa using h7)
          · exact Or.inr ⟨by simp [h7], h8⟩
      · intro a y hy
        cases a with
        | zero => exact ⟨y, by simpa using hy, State.Le.refl y⟩
        | succ a => simpa using h5 a y (by simpa using hy)
      · intro y hy
        rcases List.mem_cons.1 hy with rfl | hy
        · exact hg y (by simp)
        · exact h6 y hy

/-! ### The loop -/

/-- The state of an alternative at a node. -/
def At (inputs : List (List State)) (i a : Nat) (s : State) : Prop := (inputs[i]?).bind (·[a]?) = some s

/-- All the states are good. -/
def AllGood (F : Func) (inputs : List (List State)) : Prop := ∀ i a s, At inputs i a s → Good F s

/-- What goes along the edge is described by an alternative at its end. -/
def Covered (inputs : List (List State)) (e : Nat × State) : Prop := ∃ b y, At inputs e.1 b y ∧ e.2.Le y

/-- The alternatives have only grown, and those that have are in the work. -/
structure Grown (F : Func) (inputs inputs' : List (List State)) (work work' : List (Nat × Nat)) : Prop where
  len : inputs'.length = inputs.length
  good : AllGood F inputs'
  back : ∀ i a y, At inputs' i a y → At inputs i a y ∨ (i, a) ∈ work'
  forth : ∀ i a y, At inputs i a y → ∃ y', At inputs' i a y' ∧ y.Le y'
  work : ∀ w ∈ work, w ∈ work'

theorem Covered.grown {F : Func} {inputs inputs' : List (List State)} {work work' : List (Nat × Nat)} {e : Nat × State}
    (h : Covered inputs e) (hg : Grown F inputs inputs' work work') : Covered inputs' e := by
  obtain ⟨b, y, h1, h2⟩ := h
  obtain ⟨y', h3, h4⟩ := hg.forth _ _ _ h1
  exact ⟨b, y', h3, h2.trans h4⟩

theorem at_set {inputs : List (List State)} {t : Nat} {alts alts' : List State} (h : inputs[t]? = some alts) (i a : Nat)
    (s : State) : At (inputs.set t alts') i a s ↔ if i = t then alts'[a]? = some s else At inputs i a s := by
  have hlt := (List.getElem?_eq_some_iff.1 h).1
  unfold At
  by_cases e : i = t
  · subst e
    simp [hlt]
  · rw [List.getElem?_set_ne (fun h => e h.symm), if_neg e]

theorem at_same {inputs : List (List State)} {t : Nat} {alts : List State} (h : inputs[t]? = some alts) (a : Nat) (s : State) :
    At inputs t a s ↔ alts[a]? = some s := by
  simp only [At, h, Option.bind_some]

theorem spread_spec {F : Func} : ∀ (edges : List (Nat × State)) (inputs : List (List State)) (work : List (Nat × Nat))
    (r : List (List State) × List (Nat × Nat)), AllGood F inputs → (∀ e ∈ edges, Good F e.2) →
    spread edges inputs work = some r → Grown F inputs r.1 work r.2 ∧ ∀ e ∈ edges, Covered r.1 e
  | [], inputs, work, r, hg, _, h => by
    simp only [spread, Option.some.injEq] at h
    subst h
    exact ⟨⟨rfl, hg, fun _ _ _ h => Or.inl h, fun _ _ y h => ⟨y, h, State.Le.refl y⟩, fun _ h => h⟩, by simp⟩
  | (t, s) :: rest, inputs, work, r, hg, he, h => by
    simp only [spread, Option.bind_eq_some_iff] at h
    obtain ⟨alts, h1, r1, h2, h3⟩ := h
    have hgs : Good F s := he (t, s) (by simp)
    have halts : ∀ a ∈ alts, Good F a := by
      intro a ha
      obtain ⟨n, hn⟩ := List.getElem?_of_mem ha
      exact hg t n a ((at_same h1 n a).2 hn)
    obtain ⟨⟨x, h4, h5⟩, h6, h7, h8⟩ := merge_spec hgs alts r1 halts h2
    have hset := at_set (alts' := r1.1) h1
    have hgrow : Grown F inputs (inputs.set t r1.1) work (if r1.2.2 then work ++ [(t, r1.2.1)] else work) := by
      refine ⟨by simp, ?_, ?_, ?_, ?_⟩
      · intro i a y hy
        rw [hset] at hy
        split at hy
        · exact h8 y (List.mem_of_getElem? hy)
        · exact hg i a y hy
      · intro i a y hy
        rw [hset] at hy
        split at hy
        · rename_i e
          subst e
          rcases h6 a y hy with h9 | ⟨h9, h10⟩
          · exact Or.inl ((at_same h1 a y).2 h9)
          · right
            rw [if_pos h10, h9]
            simp
        · exact Or.inl hy
      · intro i a y hy
        by_cases e : i = t
        · subst e
          obtain ⟨y', h9, h10⟩ := h7 a y ((at_same h1 a y).1 hy)
          exact ⟨y', by rw [hset, if_pos rfl]; exact h9, h10⟩
        · exact ⟨y, by rw [hset, if_neg e]; exact hy, State.Le.refl y⟩
      · intro w hw
        split
        · exact List.mem_append_left _ hw
        · exact hw
    have hcov : Covered (inputs.set t r1.1) (t, s) := ⟨r1.2.1, x, by rw [hset, if_pos rfl]; exact h4, h5⟩
    obtain ⟨h9, h10⟩ := spread_spec rest _ _ r hgrow.good (fun e h => he e (by simp [h])) h3
    refine ⟨⟨h9.len.trans hgrow.len, h9.good, ?_, ?_, fun w hw => h9.work w (hgrow.work w hw)⟩, ?_⟩
    · intro i a y hy
      rcases h9.back i a y hy with h11 | h11
      · rcases hgrow.back i a y h11 with h12 | h12
        · exact Or.inl h12
        · exact Or.inr (h9.work _ h12)
      · exact Or.inr h11
    · intro i a y hy
      obtain ⟨y', h11, h12⟩ := hgrow.forth i a y hy
      obtain ⟨y'', h13, h14⟩ := h9.forth i a y' h11
      exact ⟨y'', h13, h12.trans h14⟩
    · intro e hmem
      rcases List.mem_cons.1 hmem with rfl | hmem
      · exact hcov.grown h9
      · exact h10 e hmem

/-- Every alternative is in the work, or all that leaves it is covered. -/
def Closed (F : Func) (inputs : List (List State)) (work : List (Nat × Nat)) : Prop :=
  ∀ i a s, At inputs i a s → (i, a) ∈ work ∨ ∃ edges, transfer F i s = some edges ∧ ∀ e ∈ edges, Covered inputs e

theorem loop_spec {F : Func} : ∀ (k : Nat) (inputs : List (List State)) (work : List (Nat × Nat)) (r : List (List State)),
    AllGood F inputs → Closed F inputs work → loop F k inputs work = some r →
    AllGood F r ∧ Closed F r [] ∧ r.length = inputs.length ∧ ∀ i a y, At inputs i a y → ∃ y', At r i a y' ∧ y.Le y'
  | k, inputs, [], r, hg, hc, h => by
    have : r = inputs := by cases k <;> simpa [loop] using h.symm
    subst this
    exact ⟨hg, hc, rfl, fun _ _ y hy => ⟨y, hy, State.Le.refl y⟩⟩
  | 0, _, _ :: _, r, _, _, h => by simp [loop] at h
  | k + 1, inputs, (i, a) :: work, r, hg, hc, h => by
    rw [loop] at h
    rw [Option.bind_eq_some_iff] at h
    obtain ⟨s, h1, h⟩ := h
    simp only [Option.bind_eq_some_iff] at h
    obtain ⟨edges, h2, r1, h3, h4⟩ := h
    obtain ⟨h5, h6⟩ := spread_spec edges inputs work r1 hg ((hg i a s h1).transfer h2) h3
    have hc' : Closed F r1.1 r1.2 := by
      intro i' a' s' hs'
      rcases h5.back i' a' s' hs' with h7 | h7
      · by_cases e : (i', a') = (i, a)
        · cases e
          have : s' = s := by
            unfold At at h7
            rw [h1, Option.some.injEq] at h7
            exact h7.symm
          subst this
          exact Or.inr ⟨edges, h2, h6⟩
        · rcases hc i' a' s' h7 with h8 | ⟨ed, h8, h9⟩
          · rcases List.mem_cons.1 h8 with h8 | h8
            · exact absurd h8 e
            · exact Or.inl (h5.work _ h8)
          · exact Or.inr ⟨ed, h8, fun x hx => (h9 x hx).grown h5⟩
      · exact Or.inl h7
    obtain ⟨h7, h8, h9, h10⟩ := loop_spec k r1.1 r1.2 r h5.good hc' h4
    refine ⟨h7, h8, h9.trans h5.len, ?_⟩
    intro i' a' y hy
    obtain ⟨y', h11, h12⟩ := h5.forth i' a' y hy
    obtain ⟨y'', h13, h14⟩ := h10 i' a' y' h11
    exact ⟨y'', h13, h12.trans h14⟩

/-! ### The start and the end -/

theorem initial_good (F : Func) : Good F (initial F) := by
  refine ⟨by simp [initial], ?_⟩
  intro r T R hT hR
  simp only [initial, List.getElem?_map, Option.map_eq_some_iff] at hT
  obtain ⟨e, he, rfl⟩ := hT
  simp only [Func.ty, he, Option.map_some, Option.some.injEq] at hR
  subst hR
  split
  · exact ⟨live_of _, live_joined _⟩
  · exact ⟨shaped_of _ _, shaped_joined _ _⟩

theorem initial_rel {F : Func} {m : Mem} (h : Start F m) : Rel F (initial F) m := by
  have hroot : ∀ {r : Nat} {T : Tree}, (initial F).roots[r]? = some T → ∃ R b, F.roots[r]? = some (R, b) ∧
      T = if b = true then live R else shaped .UN R := by
    intro r T hT
    simp only [initial, List.getElem?_map, Option.map_eq_some_iff] at hT
    obtain ⟨⟨R, b⟩, he, rfl⟩ := hT
    exact ⟨R, b, he, rfl⟩
  refine ⟨initial_good F, ?_, ?_, ?_, ?_, ?_, ?_, ?_⟩
  · intro r T q a hT ha hr
    obtain ⟨R, b, h1, rfl⟩ := hroot hT
    cases b with
    | true => exact absurd ((h.stack r).2 ⟨R, h1⟩) hr
    | false => rw [shaped_leaf ha]; rfl
  · intro r T q a hT ha hr hf
    obtain ⟨R, hR⟩ := (h.stack r).1 hr
    rw [h.full r R q hR] at hf
    cases hf
  · intro r T q a hT ha hr hf
    obtain ⟨R, hR⟩ := (h.stack r).1 hr
    obtain ⟨R', b, h1, rfl⟩ := hroot hT
    rw [hR, Option.some.injEq] at h1
    cases h1
    exact (live_leaf q R ha).1
  · intro t r q ht
    rcases h.tok t with h1 | ⟨r', q', R, h1, h2, h3⟩
    · rw [h1] at ht; cases ht
    · rw [h1] at ht
      cases ht
      obtain ⟨a, h4, h5⟩ := room_live (p := []) (R := R) rfl h3
      refine ⟨(h.stack r).2 ⟨R, h2⟩, R, live R, a, by simp [Func.ty, h2], ?_, h4, h5, h3⟩
      simp [initial, h2]
  · intro t ht
    rcases h.tok t with h1 | ⟨r', q', R, h1, _⟩ <;> rw [h1] at ht <;> cases ht
  · intro k
    exact Or.inl ⟨rfl, h.marks k⟩
  · intro j
    simp [initial, h.opens j]

mutual
theorem opaque_of : ∀ (R : Ty), R.exact = false → R.Opaque
  | .mk _ true _ _, h => by simp [Ty.exact] at h
  | .mk id false .product fs, h => by
    simp only [Ty.exact] at h
    obtain ⟨i, t, h1, p, x, h2, h3⟩ := opaques_of fs h
    exact ⟨i :: p, x, by simp only [Ty.at, Ty.fields, h1, Option.bind_some, h2], h3⟩
  | .mk id false (.named true) fs, h => ⟨[], _, rfl, rfl, Or.inr rfl⟩
  | .mk id false (.named false) fs, h => by
    simp only [Ty.exact, Bool.not_false, Bool.true_and] at h
    obtain ⟨i, t, h1, p, x, h2, h3⟩ := opaques_of fs h
    exact ⟨i :: p, x, by simp only [Ty.at, Ty.fields, h1, Option.bind_some, h2], h3⟩
  | .mk id false .other fs, h => ⟨[], _, rfl, rfl, Or.inl rfl⟩

theorem opaques_of : ∀ (us : Tys), us.exact = false → ∃ i t, us.get i = some t ∧ t.Opaque
  | .nil, h => by simp [Tys.exact] at h
  | .cons t rest, h => by
    simp only [Tys.exact, Bool.and_eq_false_iff] at h
    rcases h with h | h
    · exact ⟨0, t, rfl, opaque_of t h⟩
    · obtain ⟨i, t', h1, h2⟩ := opaques_of rest h
      exact ⟨i + 1, t', h1, h2⟩
end

theorem exit_clean {F : Func} {s : State} {m : Mem} (h : Rel F s m) (he : exitOk F s = true) : Clean F m := by
  simp only [exitOk, Bool.and_eq_true, List.isEmpty_iff] at he
  obtain ⟨h1, h2⟩ := he
  have hroot : ∀ {r : Nat} {T : Tree} {R : Ty} {b : Bool}, s.roots[r]? = some T → F.roots[r]? = some (R, b) → exitRoot (R, b) T = true := by
    intro r T R b hT hR
    refine List.all_eq_true.1 h2 ((R, b), T) ?_
    apply List.mem_of_getElem? (i := r)
    rw [List.getElem?_zip_eq_some]
    exact ⟨hR, hT⟩
  refine ⟨?_, ?_, ?_⟩
  · intro j
    have := h.opens j
    rw [h1] at this
    simpa using this
  · intro r R q hR hq
    obtain ⟨T, hT, hof, hj⟩ := h.good.has (r := r) (R := R) (by simp [Func.ty, hR])
    have h3 := hroot hT hR
    simp only [exitRoot, if_true, decide_eq_true_eq] at h3
    have h4 := leafOn_ends q hof
    rw [hq] at h4
    obtain ⟨a, ha⟩ := Option.isSome_iff_exists.1 h4
    have hle := leaf_le q hj ha
    rw [h3] at hle
    by_contra hf
    have hf' : m.full r q = true := by simpa using hf
    by_cases hr : r ∈ m.stack
    · rcases h.filled hT ha hr hf' with h5 | h5
      · have := hle.ln h5; cases this
      · have := hle.ld h5; cases this
    · have := hle.un (h.out hT ha hr); cases this
  · intro t
    cases ht : m.tok t with
    | unborn => exact Or.inl rfl
    | gone => exact Or.inr (Or.inl rfl)
    | lost => exact absurd ht (h.kept t)
    | «at» r q =>
      obtain ⟨hr, R, T, a, h3, h4, h5, h6, h7⟩ := h.tok ht
      simp only [Func.ty, Option.map_eq_some_iff] at h3
      obtain ⟨⟨R', b⟩, h8, h9⟩ := h3
      simp only at h9
      subst h9
      obtain ⟨_, _, _, hj⟩ := h.good.ty h4
      have hle := leaf_le q hj h5
      have h10 := hroot h4 h8
      cases b with
      | true =>
        simp only [exitRoot, if_true, decide_eq_true_eq] at h10
        rw [h10] at hle
        have := hle.ld h6; cases this
      | false =>
        simp only [exitRoot, Bool.false_eq_true, if_false, Bool.or_eq_true, Bool.not_eq_true'] at h10
        rcases h10 with h10 | h10
        · exact Or.inr (Or.inr ⟨r, q, R', rfl, h8, opaque_of R' h10⟩)
        · have := hle.ld h6
          rw [h10] at this
          cases this

/-- Every execution stays within what the loop ends with. -/
theorem run_covered {F : Func} (hv : verified F) : ∃ r : List (List State), AllGood F r ∧ Closed F r [] ∧
    ∀ i m, Run F i m → ∃ a s, At r i a s ∧ Rel F s m := by
  obtain ⟨k, r, hk⟩ := hv
  have hne : 0 < F.nodes.length := by
    by_contra hn
    have : F.nodes.length = 0 := by omega
    rw [this] at hk
    cases k <;> simp [loop] at hk
  have hat : ∀ i a s, At ((List.replicate F.nodes.length []).set 0 [initial F]) i a s → i = 0 ∧ a = 0 ∧ s = initial F := by
    intro i a s h
    have hz : (List.replicate F.nodes.length ([] : List State))[0]? = some [] := by simp [hne]
    rw [at_set hz] at h
    split at h
    · rename_i e
      cases a with
      | zero => simp at h; exact ⟨e, rfl, h.symm⟩
      | succ a => simp at h
    · simp only [At, Option.bind_eq_some_iff] at h
      obtain ⟨l, h1, h2⟩ := h
      have := List.eq_of_mem_replicate (List.mem_of_getElem? h1)
      subst this
      simp at h2
  obtain ⟨h1, h2, h3, h4⟩ := loop_spec (F := F) k _ _ r
    (fun i a s h => by obtain ⟨_, _, rfl⟩ := hat i a s h; exact initial_good F)
    (fun i a s h => by obtain ⟨rfl, rfl, _⟩ := hat i a s h; exact Or.inl (by simp)) hk
  refine ⟨r, h1, h2, ?_⟩
  intro i m hrun
  induction hrun with
  | start hs =>
    have hz : (List.replicate F.nodes.length ([] : List State))[0]? = some [] := by simp [hne]
    obtain ⟨y, h5, h6⟩ := h4 0 0 (initial F) (by rw [at_set hz]; simp)
    exact ⟨0, y, h5, (initial_rel hs).mono h6 (h1 _ _ _ h5)⟩
  | step _ ho hst ih =>
    obtain ⟨a, s, h5, h6⟩ := ih
    rcases h2 _ a s h5 with h7 | ⟨edges, h7, h8⟩
    · cases h7
    have next : ∀ {i' s' m'}, (i', s') ∈ edges → Rel F s' m' → ∃ a y, At r i' a y ∧ Rel F y m' := by
      intro i' s' m' hmem hrel
      obtain ⟨b, y, h9, h10⟩ := h8 _ hmem
      exact ⟨b, y, h9, hrel.mono h10 (h1 _ _ _ h9)⟩
    cases hst with
    | op hn hd =>
      simp only [transfer, hn, Option.map_eq_some_iff] at h7
      obtain ⟨r', h9, rfl⟩ := h7
      exact next (by simp) ((h6.op h9 (ho _ (Or.inl hn))).2.1 _ hd)
    | goto hn =>
      simp only [transfer, hn, Option.some.injEq] at h7
      subst h7
      exact next (by simp) h6
    | yes hn =>
      simp only [transfer, hn, Option.some.injEq] at h7
      subst h7
      exact next (List.mem_cons_self ..) h6
    | no hn =>
      simp only [transfer, hn, Option.some.injEq] at h7
      subst h7
      exact next (List.mem_cons_of_mem _ (List.mem_cons_self ..)) h6
    | normal hn hd =>
      simp only [transfer, hn, Option.map_eq_some_iff] at h7
      obtain ⟨r', h9, rfl⟩ := h7
      exact next (List.mem_cons_self ..) ((h6.op h9 (ho _ (Or.inr ⟨_, _, hn⟩))).2.1 _ hd)
    | error hn hd =>
      simp only [transfer, hn, Option.map_eq_some_iff] at h7
      obtain ⟨r', h9, rfl⟩ := h7
      exact next (List.mem_cons_of_mem _ (List.mem_cons_self ..)) ((h6.op h9 (ho _ (Or.inr ⟨_, _, hn⟩))).2.2 _ hd)
    | resume hn =>
      simp only [transfer, hn, Option.some.injEq] at h7
      subst h7
      exact next (by simp) h6

/-- What holds at every point of every execution. -/
theorem run_safe {F : Func} (hv : verified F) {i : Nat} {m : Mem} (hr : Run F i m) :
    (∃ n, F.nodes[i]? = some n) ∧ (∀ o, F.opAt i o → ¬ Odd F o m → ¬ Bad F o m) ∧ (∀ t, m.tok t ≠ .lost) ∧
    ((F.nodes[i]? = some .ret ∨ F.nodes[i]? = some .propagate) → Clean F m) := by
  obtain ⟨r, h1, h2, h3⟩ := run_covered hv
  obtain ⟨a, s, h5, h6⟩ := h3 i m hr
  rcases h2 i a s h5 with h7 | ⟨edges, h7, _⟩
  · cases h7
  refine ⟨?_, ?_, h6.kept, ?_⟩
  · cases hn : F.nodes[i]? with
    | none => simp [transfer, hn] at h7
    | some n => exact ⟨n, rfl⟩
  · intro o ho hodd
    rcases ho with hn | ⟨n, e, hn⟩
    · simp only [transfer, hn, Option.map_eq_some_iff] at h7
      obtain ⟨r', h9, rfl⟩ := h7
      exact (h6.op h9 hodd).1
    · simp only [transfer, hn, Option.map_eq_some_iff] at h7
      obtain ⟨r', h9, rfl⟩ := h7
      exact (h6.op h9 hodd).1
  · intro hn
    have : exitOk F s = true := by
      rcases hn with hn | hn <;> simp only [transfer, hn] at h7 <;> split at h7 <;> first | assumption | cases h7
    exact exit_clean h6 this

end Ferlium.Verify
