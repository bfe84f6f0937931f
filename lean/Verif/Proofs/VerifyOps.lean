import Verif.Proofs.VerifyRel

/-!
Every operation that is accepted keeps states and memory together.
-/
namespace Ferlium.Verify

/-- The part of `State.transport` about the destination. -/
def landing (isMove : Bool) (sv : Option Tree) (dst : Place) (s : State) : Option State :=
  match dst with
  | .outside => some s
  | .root r p =>
    match s.get r p with
    | none => some (s.markOpaque r p)
    | some x =>
      if x.st.free then
        let y := match sv with
          | some v => if v.ty = x.ty then v else if isMove then live x.ty else shaped .LN x.ty
          | none => if isMove then live x.ty else shaped .LN x.ty
        some (s.upd r fun t => t.replace p y)
      else none

/-- The part about the source. -/
def leaving (isMove : Bool) (src : Place) (s : State) : State :=
  match src with
  | .outside => s
  | .root r p => if isMove then s.upd r (Tree.setPath p .AB) else s

theorem transport_eq (isMove : Bool) (src dst : Place) (s : State) :
    s.transport isMove src dst = (s.source src).bind fun sv => (landing isMove sv dst s).map (leaving isMove src) := by
  unfold State.transport landing leaving
  cases src <;> cases dst <;> rfl

theorem landing_write {F : Func} {s s1 : State} {m : Mem} (h : Rel F s m) {isMove : Bool} {sv : Option Tree} {dst : Place}
    (hs : landing isMove sv dst s = some s1) : ¬ BadWrite F dst m := by
  cases dst with
  | outside => exact fun hb => hb
  | root r p =>
    rintro ⟨hb, hn⟩
    obtain ⟨X, hX⟩ := h.tracked.1 hb
    simp only [landing, hX] at hs
    split at hs
    · rename_i hf
      exact hn (h.alloc hX (free_iff.1 hf).1)
    · cases hs

theorem landing_free {s s1 : State} {isMove : Bool} {sv : Option Tree} {r : Nat} {p : List Nat}
    (hs : landing isMove sv (.root r p) s = some s1) : ∀ X, s.get r p = some X → X.st.free = true := by
  intro X hX
  simp only [landing, hX] at hs
  split at hs
  · assumption
  · cases hs

theorem landing_rel {F : Func} {s s1 : State} {m m1 : Mem} (h : Rel F s m) {isMove : Bool} {sv : Option Tree} {r : Nat}
    {p : List Nat} (hs : landing isMove sv (.root r p) s = some s1)
    (hsv : ∀ v, sv = some v → ∃ r0 p0, s.get r0 p0 = some v ∧ v.st.live = true)
    (ho : ¬ OddWrite F (.root r p) m) (hm : Overwrite F r p m m1) {tok' : Nat → Loc}
    (htok : ∀ t r' q, tok' t = .at r' q → (m.tok t = .at r' q) ∨
      (isMove = true ∧ r' = r ∧ ∃ u R, q = p ++ u ∧ F.ty r = some R ∧ Ty.room q R = true ∧
        ∀ v X, sv = some v → s.get r p = some X → v.ty = X.ty → ∃ a, leafOn u v = some a ∧ a.ld = true))
    (hlost : ∀ t, tok' t ≠ .lost) : Rel F s1 { m1 with tok := tok' } := by
  simp only [landing] at hs
  cases hX : s.get r p with
  | none =>
    rw [hX] at hs
    simp only [Option.some.injEq] at hs
    subst hs
    have hr : r ∈ m.stack := by
      by_contra hn
      refine ho ⟨fun ht => ?_, hn⟩
      obtain ⟨X, hX'⟩ := h.tracked.1 ht
      rw [hX] at hX'; cases hX'
    refine h.opaquePut hX hr hm ?_ hlost
    intro t r' q ht
    rcases htok t r' q ht with h1 | ⟨_, h1, u, R, h2, h3, h4, _⟩
    · exact Or.inl h1
    · exact Or.inr ⟨h1, u, R, h2, h3, h4⟩
  | some X =>
    rw [hX] at hs
    simp only at hs
    split at hs
    · rename_i hfree
      simp only [Option.some.injEq] at hs
      subst hs
      obtain ⟨R, T, x, h1, h2, h3, h4, h5, h6, h7, h8, h9⟩ := h.node hX
      refine h.put hX hfree ?_ ?_ hm ?_ hlost
      · rw [h9]
        cases sv with
        | none =>
          simp only
          split
          · exact live_of x
          · exact shaped_of _ x
        | some v =>
          simp only
          split
          · rename_i hty
            obtain ⟨r0, p0, hv, _⟩ := hsv v rfl
            obtain ⟨_, _, y, _, _, _, _, _, _, h10, _, h11⟩ := h.node hv
            rw [← hty, h11]
            exact h10
          · split
            · exact live_of x
            · exact shaped_of _ x
      · intro u a hu
        have key : ∀ {b : Bool}, leafOn u (if b = true then live X.ty else shaped .LN X.ty) = some a → a.ln = true ∨ a.ld = true := by
          intro b hu
          split at hu
          · exact (live_leaf u _ hu).1
          · rw [shaped_leaf hu]; exact Or.inl rfl
        cases sv with
        | none => exact key hu
        | some v =>
          simp only at hu
          split at hu
          · obtain ⟨r0, p0, hv, hl⟩ := hsv v rfl
            exact live_read h hv hl hu
          · exact key hu
      · intro t r' q ht
        rcases htok t r' q ht with h10 | ⟨h10, h11, u, R', h12, h13, h14, h15⟩
        · exact Or.inl h10
        · rw [h1, Option.some.injEq] at h13
          subst h13
          subst h12
          subst h10
          refine Or.inr ⟨h11, u, ?_⟩
          have key : ∃ a, leafOn u (if (true : Bool) = true then live X.ty else shaped .LN X.ty) = some a ∧ a.ld = true := by
            rw [h9]
            exact room_live h6 h14
          cases sv with
          | none =>
            obtain ⟨a, h16, h17⟩ := key
            exact ⟨a, R, rfl, h1, h16, h17, h14⟩
          | some v =>
            simp only
            by_cases hty : v.ty = X.ty
            · obtain ⟨a, h16, h17⟩ := h15 v X rfl hX hty
              exact ⟨a, R, trivial, h1, by rw [if_pos hty]; exact h16, h17, h14⟩
            · obtain ⟨a, h16, h17⟩ := key
              exact ⟨a, R, trivial, h1, by simpa only [if_neg hty] using h16, h17, h14⟩
    · cases hs

theorem source_spec {s : State} {src : Place} {sv : Option Tree} (hs : s.source src = some sv) :
    (∀ v, sv = some v → ∃ r p, src = .root r p ∧ s.get r p = some v ∧ v.st.live = true) ∧
    (∀ r p X, src = .root r p → s.get r p = some X → sv = some X ∧ X.st.live = true) := by
  cases src with
  | outside =>
    simp only [State.source, Option.some.injEq] at hs
    subst hs
    exact ⟨nofun, nofun⟩
  | root r p =>
    simp only [State.source] at hs
    cases hX : s.get r p with
    | none =>
      rw [hX] at hs
      simp only [Option.some.injEq] at hs
      subst hs
      exact ⟨nofun, fun r' p' X e he => by cases e; rw [hX] at he; cases he⟩
    | some X =>
      rw [hX] at hs
      simp only at hs
      split at hs
      · rename_i hl
        rw [Option.some.injEq] at hs
        subst hs
        exact ⟨fun v hv => by cases hv; exact ⟨r, p, rfl, hX, hl⟩,
          fun r' p' X' e he => by cases e; rw [hX] at he; cases he; exact ⟨rfl, hl⟩⟩
      · cases hs

theorem source_read {F : Func} {s : State} {m : Mem} (h : Rel F s m) {src : Place} {sv : Option Tree}
    (hs : s.source src = some sv) : ¬ BadRead F src m := by
  cases src with
  | outside => exact fun hb => hb
  | root r p => exact h.read fun X hX => ((source_spec hs).2 r p X rfl hX).2

/-- `Memcpy`. -/
theorem Rel.memcpy {F : Func} {s s' : State} {m : Mem} (h : Rel F s m) {src dst : Place} (hc : s.copyable src = true)
    (hs : s.transport false src dst = some s') :
    ¬ Bad F (.memcpy src dst) m ∧ (¬ OddWrite F dst m → ∀ m', Put F false dst m m' → Rel F s' m') := by
  rw [transport_eq] at hs
  simp only [Option.bind_eq_some_iff, Option.map_eq_some_iff] at hs
  obtain ⟨sv, h1, s1, h2, rfl⟩ := hs
  have hl : leaving false src s1 = s1 := by cases src <;> rfl
  rw [hl]
  refine ⟨?_, ?_⟩
  · rintro (hb | hb | hb)
    · exact source_read h h1 hb
    · cases src with
      | outside => exact hb
      | root r p =>
        obtain ⟨ht, t, u, hu⟩ := hb
        obtain ⟨X, hX⟩ := h.tracked.1 ht
        simp only [State.copyable, hX] at hc
        obtain ⟨R, T, x, h3, h4, h5, h6, h7, h8, h9, h10, h11⟩ := h.node hX
        obtain ⟨_, R', _, _, h12, _, _, _, h13⟩ := h.tok hu
        rw [h3, Option.some.injEq] at h12
        subst h12
        have := room_plain (room_at _ _ _ u h8 h13)
        rw [← h11, hc] at this
        cases this
    · exact landing_write h h2 hb
  · intro ho m' hm
    cases dst with
    | outside =>
      simp only [landing, Option.some.injEq] at h2
      simp only [Put] at hm
      subst h2; subst hm
      exact h
    | root r p =>
      obtain ⟨m1, tok', h3, _, h4, rfl⟩ := hm
      have ht1 := overwrite_tok h (landing_free h2) h3
      have := h4 rfl
      subst this
      refine landing_rel h h2 (fun v hv => ?_) ho h3 ?_ ?_
      · obtain ⟨r0, p0, _, h5, h6⟩ := (source_spec h1).1 v hv
        exact ⟨r0, p0, h5, h6⟩
      · intro t r' q ht
        rw [ht1] at ht
        exact Or.inl ht
      · intro t ht
        rw [ht1] at ht
        exact h.kept t ht

theorem tracked_prefix {F : Func} {r : Nat} {p q : List Nat} (h : p <+: q) (hq : Tracked F r q) : Tracked F r p := by
  obtain ⟨R, x, h1, h2⟩ := hq
  obtain ⟨u, rfl⟩ := h
  have key : ∀ (p : List Nat) (R : Ty), Ty.at (p ++ u) R = some x → ∃ y, Ty.at p R = some y := by
    intro p
    induction p with
    | nil => intro R _; exact ⟨R, rfl⟩
    | cons i p ih =>
      intro R hR
      simp only [List.cons_append, Ty.at, Option.bind_eq_some_iff] at hR
      obtain ⟨c, h3, h4⟩ := hR
      obtain ⟨y, hy⟩ := ih c h4
      exact ⟨y, by simp only [Ty.at, h3, Option.bind_some, hy]⟩
  obtain ⟨y, hy⟩ := key p R h2
  exact ⟨R, y, h1, hy⟩

theorem upd_self {s : State} {r : Nat} {f : Tree → Tree} (h : ∀ T, s.roots[r]? = some T → f T = T) : s.upd r f = s := by
  unfold State.upd
  split
  · rename_i T hT
    rw [h T hT]
    cases s
    simp only [State.mk.injEq, and_true]
    simp only at hT
    obtain ⟨h1, h2⟩ := List.getElem?_eq_some_iff.1 hT
    rw [← h2, List.set_getElem_self]
  · rfl

theorem Rel.setPath_none {F : Func} {s : State} {m : Mem} (h : Rel F s m) {r : Nat} {p : List Nat} (hn : ¬ Tracked F r p) :
    s.upd r (Tree.setPath p .AB) = s := by
  refine upd_self fun T hT => ?_
  have : Tree.atPath p T = none := by
    cases hX : Tree.atPath p T with
    | none => rfl
    | some X => exact absurd (h.tracked.2 ⟨X, by simp only [State.get, hT, Option.bind_some, hX]⟩) hn
  simp only [Tree.setPath, modify_none _ _ _ this]

/-- Values disappear without being lost. -/
theorem Rel.fewer {F : Func} {s : State} {m : Mem} (h : Rel F s m) {tok' : Nat → Loc}
    (htok : ∀ t, tok' t = m.tok t ∨ tok' t = .gone) : Rel F s { m with tok := tok' } := by
  refine ⟨h.good, h.out, h.empty, h.filled, ?_, ?_, h.marks, h.opens⟩
  · intro t r q ht
    rcases htok t with h1 | h1
    · simp only [h1] at ht; exact h.tok ht
    · simp only [h1] at ht; cases ht
  · intro t ht
    rcases htok t with h1 | h1
    · simp only [h1] at ht; exact h.kept t ht
    · simp only [h1] at ht; cases ht

theorem overwrite_stack {F : Func} {r : Nat} {p : List Nat} {m m1 : Mem} (h : Overwrite F r p m m1) : m1.stack = m.stack := by
  obtain ⟨R, _, ⟨_, rfl⟩ | ⟨_, rfl⟩⟩ := h <;> rfl

/-- `Move`. -/
theorem Rel.move {F : Func} {s s' : State} {m : Mem} (h : Rel F s m) {src dst : Place}
    (hs : s.transport true src dst = some s') :
    ¬ Bad F (.move src dst) m ∧ (¬ Odd F (.move src dst) m → ∀ m', Move F src dst m m' → Rel F s' m') := by
  rw [transport_eq] at hs
  simp only [Option.bind_eq_some_iff, Option.map_eq_some_iff] at hs
  obtain ⟨sv, h1, s1, h2, rfl⟩ := hs
  have hsv := source_spec h1
  have hsv' : ∀ v, sv = some v → ∃ r0 p0, s.get r0 p0 = some v ∧ v.st.live = true := fun v hv => by
    obtain ⟨r0, p0, _, h5, h6⟩ := hsv.1 v hv
    exact ⟨r0, p0, h5, h6⟩
  refine ⟨?_, ?_⟩
  · rintro (hb | hb)
    · exact source_read h h1 hb
    · exact landing_write h h2 hb
  · intro ho m' hm
    cases src with
    | outside =>
      simp only [leaving]
      simp only [State.source, Option.some.injEq] at h1
      subst h1
      cases dst with
      | outside =>
        simp only [landing, Option.some.injEq] at h2
        simp only [Move, Put] at hm
        subst h2; subst hm
        exact h
      | root r p =>
        obtain ⟨m1, tok', h3, ⟨R, hR, h4⟩, _, rfl⟩ := hm
        have ht1 := overwrite_tok h (landing_free h2) h3
        refine landing_rel h h2 hsv' ho h3 ?_ ?_
        · intro t r' q ht
          rcases h4 t with h5 | ⟨_, u, h5, h6⟩
          · rw [h5, ht1] at ht; exact Or.inl ht
          · rw [h5] at ht; cases ht
            exact Or.inr ⟨rfl, rfl, u, R, rfl, hR, h6, nofun⟩
        · intro t ht
          rcases h4 t with h5 | ⟨_, u, h5, h6⟩
          · rw [h5, ht1] at ht; exact h.kept t ht
          · rw [h5] at ht; cases ht
    | root r p =>
      simp only [leaving, if_true]
      cases dst with
      | outside =>
        simp only [landing, Option.some.injEq] at h2
        subst h2
        simp only [Move] at hm
        rcases hm with ⟨ht, rfl⟩ | ⟨hn, rfl⟩
        · obtain ⟨X, hX⟩ := h.tracked.1 ht
          have := (hsv.2 r p X rfl hX).2
          exact h.absent hX (h.alloc hX (live_iff.1 this).2.2) (Or.inl rfl) rfl
        · rw [h.setPath_none hn]
          exact h.fewer fun t => by
            split
            · exact Or.inr rfl
            · exact Or.inl rfl
      | root r' p' =>
        simp only [Odd, not_or] at ho
        obtain ⟨R, R', m1, tok', hR, hR', h3, h4, h5, h6⟩ := hm
        have ht1 := overwrite_tok h (landing_free h2) h3
        rw [ht1] at h4 h5
        have hrel : Rel F s1 { m1 with tok := tok' } := by
          refine landing_rel h h2 hsv' ho.1 h3 ?_ ?_
          · intro t r1 q ht
            by_cases hu : ∃ u, m.tok t = .at r (p ++ u)
            · obtain ⟨u, hu⟩ := hu
              obtain ⟨u', h7, h8, h9⟩ := h5 t u hu
              rw [h7] at ht
              cases ht
              refine Or.inr ⟨rfl, rfl, u', R', rfl, hR', h8, ?_⟩
              intro v X hv hX hty
              obtain ⟨r0, p0, e0, hv', _⟩ := hsv.1 v hv
              cases e0
              obtain ⟨R1, T1, x1, g1, g2, g3, _, _, g4, _, _, g5⟩ := h.node hv'
              obtain ⟨R2, T2, x2, k1, _, _, _, _, k4, _, _, k5⟩ := h.node hX
              rw [hR, Option.some.injEq] at g1
              subst g1
              rw [hR', Option.some.injEq] at k1
              subst k1
              have hx : x1 = x2 := by rw [← g5, ← k5, hty]
              subst hx
              have := h9 x1 g4 k4
              subst this
              obtain ⟨_, _, T3, a, _, g6, g7, g8, _⟩ := h.tok hu
              rw [g2, Option.some.injEq] at g6
              subst g6
              rw [leafOn_at p _ g3] at g7
              exact ⟨a, g7, g8⟩
            · rw [h4 t (fun u hu' => hu ⟨u, hu'⟩)] at ht
              exact Or.inl ht
          · intro t ht
            by_cases hu : ∃ u, m.tok t = .at r (p ++ u)
            · obtain ⟨u, hu⟩ := hu
              obtain ⟨u', h7, _⟩ := h5 t u hu
              rw [h7] at ht; cases ht
            · rw [h4 t (fun u hu' => hu ⟨u, hu'⟩)] at ht
              exact h.kept t ht
        rcases h6 with ⟨ht, rfl⟩ | ⟨hn, rfl⟩
        · obtain ⟨X, hX⟩ := h.tracked.1 ht
          have hl := (hsv.2 r p X rfl hX).2
          have hr := h.alloc hX (live_iff.1 hl).2.2
          obtain ⟨X1, hX1⟩ := hrel.tracked.1 ht
          have hempty : ∀ t, ¬ Under r p (tok' t) := by
            rintro t ⟨u, hu⟩
            by_cases hu' : ∃ u', m.tok t = .at r (p ++ u')
            · obtain ⟨u', hu'⟩ := hu'
              obtain ⟨w, h7, _⟩ := h5 t u' hu'
              rw [h7] at hu
              injection hu with e1 e2
              subst e1
              have hp : ¬ p <+: p' := fun hp => ho.2 ⟨rfl, hp⟩
              have hp' : p' <+: p := by
                rcases List.prefix_or_prefix_of_prefix (l₁ := p) (l₂ := p') (l₃ := p ++ u) ⟨u, rfl⟩ ⟨w, e2⟩ with e | e
                · exact absurd e hp
                · exact e
              obtain ⟨Y, hY⟩ := h.tracked.1 (tracked_prefix hp' ht)
              refine h.none_under hY (free_iff.1 (landing_free h2 Y hY)).2 t ?_
              rw [hu']
              exact under_iff.2 ⟨rfl, hp'.trans ⟨u', rfl⟩⟩
            · rw [h4 t (fun u hu'' => hu' ⟨u, hu''⟩)] at hu
              exact hu' ⟨u, hu⟩
          have he := send_none (m := { m1 with tok := tok' }) (r := r) (p := p) .gone hempty
          refine hrel.absent hX1 ?_ (Or.inl rfl) (by rw [he])
          show r ∈ m1.stack
          rw [overwrite_stack h3]
          exact hr
        · rw [hrel.setPath_none hn]
          exact hrel

/-! ### The stack -/

theorem find_insert (k k' : Nat) (v : List Bool) : ∀ (l : List (Nat × List Bool)),
    findMark k' (insertMark k v l) = if k = k' then some v else findMark k' l
  | [] => by simp [insertMark, findMark]
  | e :: rest => by
    simp only [insertMark]
    split
    · simp [findMark]
    · split
      · rename_i h
        by_cases hk : k = k'
        · simp [findMark, hk]
        · simp only [findMark, if_neg hk]
          rw [if_neg (by rw [← h]; exact hk)]
      · rename_i h
        simp only [findMark, find_insert k k' v rest]
        by_cases hk : k = k'
        · subst hk
          rw [if_neg (fun he => h he.symm), if_pos rfl, if_pos rfl]
        · rw [if_neg hk, if_neg hk]

theorem Rel.save {F : Func} {s s' : State} {m : Mem} (h : Rel F s m) {k : Nat} (hs : s.save k = some s') :
    Rel F s' { m with marks := fun k' => if k' = k then some m.stack else m.marks k' } := by
  simp only [State.save] at hs
  split at hs
  · rename_i hall
    rw [Option.some.injEq] at hs
    subst hs
    refine ⟨⟨h.good.len, h.good.tree⟩, h.out, h.empty, h.filled, h.tok, h.kept, ?_, h.opens⟩
    intro k'
    simp only [find_insert]
    by_cases hk : k = k'
    · subst hk
      rw [if_pos rfl, if_pos rfl]
      refine Or.inr ⟨_, _, rfl, rfl, by rw [List.length_map, h.good.len], ?_⟩
      intro r b hb
      simp only [List.getElem?_map, Option.map_eq_some_iff] at hb
      obtain ⟨T, hT, rfl⟩ := hb
      have hT' := List.all_eq_true.1 hall T (List.mem_of_getElem? hT)
      have hget : s.get r [] = some T := by simp [State.get, hT, Tree.atPath]
      simp only [Bool.or_eq_true, decide_eq_true_eq, Bool.not_eq_true'] at hT'
      constructor
      · intro hu
        exact h.alloc hget (by simpa using hu)
      · intro hr
        rcases hT' with he | he
        · exfalso
          obtain ⟨R, hR, hof, hj⟩ := h.good.ty hT
          obtain ⟨u, a, ha⟩ := leaf_exists T
          have hle := leaf_le u hj ha
          rw [he] at hle
          cases hf : m.full r u with
          | false => have := hle.ab (h.empty hT ha hr hf); cases this
          | true =>
            rcases h.filled hT ha hr hf with h1 | h1
            · have := hle.ln h1; cases this
            · have := hle.ld h1; cases this
        · rw [he]; rfl
    · rw [if_neg hk, if_neg (fun he => hk he.symm)]
      exact h.marks k'
  · cases hs

theorem reclaim_spec : ∀ (snap : List Bool) (ts ts' : List Tree), snap.length = ts.length → reclaim snap ts = some ts' →
    ts'.length = ts.length ∧ ∀ (r : Nat) (T' : Tree), ts'[r]? = some T' → ∃ (T : Tree) (b : Bool), ts[r]? = some T ∧ snap[r]? = some b ∧
      ((b = true ∧ T' = T) ∨ (b = false ∧ T.st.ld = false ∧ T' = T.setAll .UN))
  | [], [], ts', _, h => by
    simp only [reclaim, Option.some.injEq] at h
    subst h
    exact ⟨rfl, by simp⟩
  | true :: snap, t :: ts, ts', hl, h => by
    simp only [reclaim, Option.map_eq_some_iff] at h
    obtain ⟨ts1, h1, rfl⟩ := h
    obtain ⟨h2, h3⟩ := reclaim_spec snap ts ts1 (by simpa using hl) h1
    refine ⟨by simp [h2], ?_⟩
    intro r T' hT
    cases r with
    | zero =>
      simp only [List.getElem?_cons_zero, Option.some.injEq] at hT
      subst hT
      exact ⟨t, true, by simp, by simp, Or.inl ⟨rfl, rfl⟩⟩
    | succ r => simpa using h3 r T' (by simpa using hT)
  | false :: snap, t :: ts, ts', hl, h => by
    simp only [reclaim] at h
    split at h
    · cases h
    · rename_i hd
      simp only [Option.map_eq_some_iff] at h
      obtain ⟨ts1, h1, rfl⟩ := h
      obtain ⟨h2, h3⟩ := reclaim_spec snap ts ts1 (by simpa using hl) h1
      refine ⟨by simp [h2], ?_⟩
      intro r T' hT
      cases r with
      | zero =>
        simp only [List.getElem?_cons_zero, Option.some.injEq] at hT
        subst hT
        exact ⟨t, false, by simp, by simp, Or.inr ⟨rfl, by simpa using hd, rfl⟩⟩
      | succ r => simpa using h3 r T' (by simpa using hT)
  | [], t :: ts, _, hl, _ => by simp at hl
  | b :: snap, [], _, hl, _ => by simp at hl

theorem Rel.restore {F : Func} {s s' : State} {m : Mem} (h : Rel F s m) {k : Nat} (hs : s.restore k = some s') :
    m.marks k ≠ none ∧ (¬ Odd F (.restore k) m → ∀ m', Do F (.restore k) true m m' → Rel F s' m') := by
  simp only [State.restore, Option.bind_eq_some_iff, Option.map_eq_some_iff] at hs
  obtain ⟨snap, h1, ts, h2, rfl⟩ := hs
  rcases h.marks k with ⟨h3, _⟩ | ⟨l, saved, h3, h4, h5, h6⟩
  · rw [h3] at h1; cases h1
  rw [h3, Option.some.injEq] at h1
  subst h1
  refine ⟨by rw [h4]; simp, ?_⟩
  intro ho m' hm
  simp only [Do] at hm
  obtain ⟨saved', h7, rfl⟩ := hm
  rw [h4, Option.some.injEq] at h7
  subst h7
  have hpre : saved <+: m.stack := by
    by_contra hn
    exact ho ⟨saved, h4, hn⟩
  rw [← List.prefix_iff_eq_take.1 hpre]
  obtain ⟨h8, h9⟩ := reclaim_spec l s.roots ts (by rw [h5, h.good.len]) h2
  have hin : ∀ {r}, r ∈ saved → r ∈ m.stack := fun hr => hpre.subset hr
  have hkeep : ∀ {r T}, ts[r]? = some T → r ∈ saved → s.roots[r]? = some T := by
    intro r T hT hr
    obtain ⟨T0, b, e1, e2, ⟨_, rfl⟩ | ⟨rfl, _, _⟩⟩ := h9 r T hT
    · exact e1
    · exact absurd ((h6 r false e2).2 hr) (by simp)
  have hgone : ∀ {r T q a}, ts[r]? = some T → r ∉ saved → leafOn q T = some a → a = .UN := by
    intro r T q a hT hr ha
    obtain ⟨T0, b, e1, e2, ⟨rfl, rfl⟩ | ⟨rfl, _, rfl⟩⟩ := h9 r T hT
    · exact absurd ((h6 r true e2).1 rfl) hr
    · exact setAll_leaf ha
  have hnotok : ∀ {t r q}, m.tok t = .at r q → r ∈ saved := by
    intro t r q ht
    by_contra hn
    obtain ⟨_, R, T, a, _, e1, e2, e3, _⟩ := h.tok ht
    have hlt := (List.getElem?_eq_some_iff.1 e1).1
    rw [← h8] at hlt
    obtain ⟨T0, b, e4, e5, ⟨rfl, _⟩ | ⟨rfl, e6, _⟩⟩ := h9 r _ (List.getElem?_eq_getElem hlt)
    · exact hn ((h6 r true e5).1 rfl)
    · rw [e1, Option.some.injEq] at e4
      subst e4
      obtain ⟨_, _, _, hj⟩ := h.good.ty e1
      have := (leaf_le q hj e2).ld e3
      rw [e6] at this
      cases this
  have htok : ∀ t, (match m.tok t with
      | .at r q => if r ∈ saved then Loc.at r q else .lost
      | l => l) = m.tok t := by
    intro t
    cases ht : m.tok t with
    | «at» r q => simp only [if_pos (hnotok ht)]
    | unborn => rfl
    | gone => rfl
    | lost => rfl
  refine ⟨⟨by rw [h8, h.good.len], ?_⟩, ?_, ?_, ?_, ?_, ?_, h.marks, h.opens⟩
  · intro r T R hT hR
    obtain ⟨T0, b, e1, e2, ⟨_, rfl⟩ | ⟨_, _, rfl⟩⟩ := h9 r T hT
    · exact h.good.tree e1 hR
    · obtain ⟨g1, _⟩ := h.good.tree e1 hR
      exact ⟨setAll_of g1, setAll_joined _ _⟩
  · intro r T q a hT ha hr
    rw [hgone hT hr ha]; rfl
  · intro r T q a hT ha hr hf
    exact h.empty (hkeep hT hr) ha (hin hr) hf
  · intro r T q a hT ha hr hf
    exact h.filled (hkeep hT hr) ha (hin hr) hf
  · intro t r q ht
    have ht' : m.tok t = .at r q := by rw [← htok t]; exact ht
    obtain ⟨_, R, T, a, e0, e1, e2, e3, e4⟩ := h.tok ht'
    have hr := hnotok ht'
    refine ⟨hr, R, T, a, e0, ?_, e2, e3, e4⟩
    have hlt := (List.getElem?_eq_some_iff.1 e1).1
    rw [← h8] at hlt
    have := hkeep (List.getElem?_eq_getElem hlt) hr
    rw [e1, Option.some.injEq] at this
    subst this
    exact List.getElem?_eq_getElem hlt
  · intro t ht
    have ht' : m.tok t = .lost := by rw [← htok t]; exact ht
    exact h.kept t ht'

theorem Rel.alloca {F : Func} {s : State} {m : Mem} (h : Rel F s m) {r : Nat} (ho : r ∉ m.stack) :
    Rel F (s.upd r (Tree.setAll .AB)) { (m.send r [] .lost).fill r [] false with stack := m.stack ++ [r] } := by
  have hno : ∀ t, ¬ Under r [] (m.tok t) := by
    rintro t ⟨u, hu⟩
    exact ho (h.tok hu).1
  rw [send_none .lost hno]
  have hnew : ∀ {r' T' q a}, (s.upd r (Tree.setAll .AB)).roots[r']? = some T' → leafOn q T' = some a →
      (r' = r ∧ a = .AB) ∨ (r' ≠ r ∧ s.roots[r']? = some T') := by
    intro r' T' q a h1 h2
    cases hT : s.roots[r]? with
    | none =>
      have : s.upd r (Tree.setAll .AB) = s := by simp only [State.upd, hT]
      rw [this] at h1
      refine Or.inr ⟨?_, h1⟩
      rintro rfl
      rw [hT] at h1; cases h1
    | some T =>
      rw [upd_get hT] at h1
      by_cases e : r = r'
      · rw [if_pos e, Option.some.injEq] at h1
        subst h1
        exact Or.inl ⟨e.symm, setAll_leaf h2⟩
      · rw [if_neg e] at h1
        exact Or.inr ⟨fun he => e he.symm, h1⟩
  have hmem : ∀ {r'}, r' ≠ r → (r' ∈ m.stack ++ [r] ↔ r' ∈ m.stack) := by
    intro r' hne
    simp [hne]
  have hfull : ∀ {r' q}, r' ≠ r → (m.fill r [] false).full r' q = m.full r' q := fun hne =>
    fill_out fun he => hne he.1
  refine ⟨h.good.upd (fun _ _ g _ => ⟨setAll_of g, setAll_joined _ _⟩), ?_, ?_, ?_, ?_, h.kept, ?_, ?_⟩
  · intro r' T' q a h1 h2 h3
    rcases hnew h1 h2 with ⟨rfl, rfl⟩ | ⟨hne, h4⟩
    · exact absurd (by simp) h3
    · exact h.out h4 h2 (fun hr => h3 ((hmem hne).2 hr))
  · intro r' T' q a h1 h2 h3 h5
    rcases hnew h1 h2 with ⟨rfl, rfl⟩ | ⟨hne, h4⟩
    · rfl
    · have h5' := h5
      simp only [hfull hne] at h5'
      exact h.empty h4 h2 ((hmem hne).1 h3) h5'
  · intro r' T' q a h1 h2 h3 h5
    rcases hnew h1 h2 with ⟨rfl, rfl⟩ | ⟨hne, h4⟩
    · have := fill_in (m := m) (r := r') (p := []) (u := q) (b := false)
      simp only [List.nil_append] at this
      simp only [this] at h5
      cases h5
    · have h5' := h5
      simp only [hfull hne] at h5'
      exact h.filled h4 h2 ((hmem hne).1 h3) h5'
  · intro t r' q ht
    obtain ⟨h1, R, T, a, h2, h3, h4, h5, h6⟩ := h.tok ht
    have hne : r' ≠ r := fun he => ho (he ▸ h1)
    refine ⟨(hmem hne).2 h1, R, T, a, h2, ?_, h4, h5, h6⟩
    cases hT : s.roots[r]? with
    | none =>
      have : s.upd r (Tree.setAll .AB) = s := by simp only [State.upd, hT]
      rw [this]; exact h3
    | some T0 =>
      rw [upd_get hT, if_neg (fun e => hne e.symm)]; exact h3
  · intro k
    rw [upd_marks]; exact h.marks k
  · intro j
    rw [upd_opens]; exact h.opens j

theorem mem_insert (j j' : Nat) : ∀ (l : List Nat), j' ∈ insertNat j l ↔ j' = j ∨ j' ∈ l
  | [] => by simp [insertNat]
  | e :: rest => by
    simp only [insertNat]
    split
    · simp
    · simp only [List.mem_cons, mem_insert j j' rest]
      tauto

theorem Rel.setOpens {F : Func} {s : State} {m : Mem} (h : Rel F s m) {l : List Nat} {o : Nat → Bool}
    (ho : ∀ j, j ∈ l ↔ o j = true) : Rel F { s with opens := l } { m with opens := o } :=
  ⟨⟨h.good.len, h.good.tree⟩, h.out, h.empty, h.filled, h.tok, h.kept, h.marks, ho⟩

/-- Every operation that is accepted is fine and keeps states and memory together. -/
theorem Rel.op {F : Func} {s : State} {m : Mem} (h : Rel F s m) {o : Op} {r : State × State} (hs : transferOp o s = some r)
    (ho : ¬ Odd F o m) : ¬ Bad F o m ∧ (∀ m', Do F o true m m' → Rel F r.1 m') ∧ (∀ m', Do F o false m m' → Rel F r.2 m') := by
  cases o with
  | alloca a =>
    simp only [transferOp, Option.some.injEq] at hs
    subst hs
    refine ⟨fun hb => hb, fun m' hm => ?_, fun m' hm => ?_⟩
    · simp only [Do] at hm
      subst hm
      exact h.alloca ho
    · simp only [Do] at hm
      subst hm
      exact h
  | store needs dst =>
    simp only [transferOp, Option.map_eq_some_iff] at hs
    obtain ⟨s1, h1, rfl⟩ := hs
    obtain ⟨h2, h3⟩ := h.store h1
    refine ⟨h2, fun m' hm => h3 ho m' hm, fun m' hm => ?_⟩
    simp only [Do] at hm
    subst hm
    exact h
  | memcpy src dst =>
    simp only [transferOp] at hs
    split at hs
    · rename_i hc
      simp only [Option.map_eq_some_iff] at hs
      obtain ⟨s1, h1, rfl⟩ := hs
      obtain ⟨h2, h3⟩ := h.memcpy hc h1
      refine ⟨h2, fun m' hm => h3 ho m' hm, fun m' hm => ?_⟩
      simp only [Do] at hm
      subst hm
      exact h
    · cases hs
  | move src dst =>
    simp only [transferOp, Option.map_eq_some_iff] at hs
    obtain ⟨s1, h1, rfl⟩ := hs
    obtain ⟨h2, h3⟩ := h.move h1
    refine ⟨h2, fun m' hm => h3 ho m' hm, fun m' hm => ?_⟩
    simp only [Do] at hm
    subst hm
    exact h
  | clear dst =>
    simp only [transferOp, Option.map_eq_some_iff] at hs
    obtain ⟨s1, h1, rfl⟩ := hs
    obtain ⟨h2, h3⟩ := h.clear h1
    refine ⟨h2, h3, fun m' hm => ?_⟩
    simp only [Do] at hm
    subst hm
    exact h
  | drop dst =>
    simp only [transferOp, Option.map_eq_some_iff] at hs
    obtain ⟨s1, h1, rfl⟩ := hs
    obtain ⟨h2, h3⟩ := h.drop h1
    refine ⟨h2, fun m' hm => ?_, fun m' hm => ?_⟩ <;>
    · simp only [Do] at hm
      subst hm
      exact h3
  | make dst =>
    simp only [transferOp, Option.map_eq_some_iff] at hs
    obtain ⟨s1, h1, rfl⟩ := hs
    obtain ⟨h2, h3⟩ := h.store h1
    refine ⟨h2, fun m' hm => h3 ho m' hm, fun m' hm => ?_⟩
    simp only [Do] at hm
    subst hm
    exact h
  | call owned dst =>
    simp only [transferOp, Option.bind_eq_some_iff, Option.map_eq_some_iff] at hs
    obtain ⟨s1, h1, s2, h2, rfl⟩ := hs
    obtain ⟨h3, h4⟩ := Rel.consumeAll owned h h1
    obtain ⟨h5, h6⟩ := h4.store h2
    refine ⟨fun hb => hb.elim h3 h5, fun m' hm => h6 ho m' hm, fun m' hm => ?_⟩
    simp only [Do] at hm
    subst hm
    exact h4
  | close captures =>
    simp only [transferOp, Option.map_eq_some_iff] at hs
    obtain ⟨s1, h1, rfl⟩ := hs
    obtain ⟨h3, h4⟩ := Rel.consumeAll captures h h1
    refine ⟨h3, fun m' hm => ?_, fun m' hm => ?_⟩
    · simp only [Do] at hm
      subst hm
      exact h4
    · simp only [Do] at hm
      subst hm
      exact h
  | save k =>
    simp only [transferOp, Option.map_eq_some_iff] at hs
    obtain ⟨s1, h1, rfl⟩ := hs
    refine ⟨fun hb => hb, fun m' hm => ?_, fun m' hm => ?_⟩
    · simp only [Do] at hm
      subst hm
      exact h.save h1
    · simp only [Do] at hm
      subst hm
      exact h
  | restore k =>
    simp only [transferOp, Option.map_eq_some_iff] at hs
    obtain ⟨s1, h1, rfl⟩ := hs
    obtain ⟨h2, h3⟩ := h.restore h1
    refine ⟨h2, fun m' hm => h3 ho m' hm, fun m' hm => ?_⟩
    simp only [Do] at hm
    subst hm
    exact h
  | project j =>
    simp only [transferOp] at hs
    split at hs
    · cases hs
    · rename_i hj
      rw [Option.some.injEq] at hs
      subst hs
      refine ⟨fun hb => hj ((h.opens j).2 hb), fun m' hm => ?_, fun m' hm => ?_⟩
      · simp only [Do] at hm
        subst hm
        refine h.setOpens fun j' => ?_
        rw [mem_insert, h.opens]
        by_cases e : j' = j <;> simp [e]
      · simp only [Do] at hm
        subst hm
        exact h
  | endProject j =>
    simp only [transferOp] at hs
    split at hs
    · rename_i hj
      rw [Option.some.injEq] at hs
      subst hs
      have key : Rel F { s with opens := s.opens.filter (· != j) } { m with opens := fun j' => if j' = j then false else m.opens j' } := by
        refine h.setOpens fun j' => ?_
        rw [List.mem_filter, h.opens]
        by_cases e : j' = j <;> simp [e]
      refine ⟨fun hb => ?_, fun m' hm => ?_, fun m' hm => ?_⟩
      · have := (h.opens j).1 hj
        simp only [Bad] at hb
        rw [this] at hb
        cases hb
      · simp only [Do] at hm
        subst hm
        exact key
      · simp only [Do] at hm
        subst hm
        exact key
    · cases hs
  | nop =>
    simp only [transferOp, Option.some.injEq] at hs
    subst hs
    refine ⟨fun hb => hb, fun m' hm => ?_, fun m' hm => ?_⟩ <;>
    · simp only [Do] at hm
      subst hm
      exact h

end Ferlium.Verify
