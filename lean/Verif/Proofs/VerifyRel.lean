import Verif.Proofs.VerifySpec

/-!
The states of the verification describe the memory.
-/
namespace Ferlium.Verify

/-- The trees have the shapes of the storage. -/
structure Good (F : Func) (s : State) : Prop where
  len : s.roots.length = F.roots.length
  tree : ∀ {r T R}, s.roots[r]? = some T → F.ty r = some R → T.Of R ∧ T.Joined

theorem Good.has {F : Func} {s : State} (h : Good F s) {r : Nat} {R : Ty} (hR : F.ty r = some R) :
    ∃ T, s.roots[r]? = some T ∧ T.Of R ∧ T.Joined := by
  have hlt : r < s.roots.length := by
    rw [h.len]
    simp only [Func.ty, Option.map_eq_some_iff] at hR
    obtain ⟨e, he, _⟩ := hR
    exact (List.getElem?_eq_some_iff.1 he).1
  have he : s.roots[r]? = some s.roots[r] := List.getElem?_eq_getElem hlt
  exact ⟨_, he, h.tree he hR⟩

theorem Good.ty {F : Func} {s : State} (h : Good F s) {r : Nat} {T : Tree} (hT : s.roots[r]? = some T) :
    ∃ R, F.ty r = some R ∧ T.Of R ∧ T.Joined := by
  have hlt : r < F.roots.length := by
    rw [← h.len]
    exact (List.getElem?_eq_some_iff.1 hT).1
  have he : F.ty r = some F.roots[r].1 := by simp [Func.ty, List.getElem?_eq_getElem hlt]
  exact ⟨_, he, h.tree hT he⟩

/-- The markers of the state are those of the memory. -/
def Marked (n : Nat) (snap : Option (List Bool)) (saved : Option (List Nat)) : Prop :=
  (snap = none ∧ saved = none) ∨
    ∃ l st, snap = some l ∧ saved = some st ∧ l.length = n ∧ ∀ r b, l[r]? = some b → (b = true ↔ r ∈ st)

/-- The state describes the memory. -/
structure Rel (F : Func) (s : State) (m : Mem) : Prop where
  good : Good F s
  out : ∀ {r T q a}, s.roots[r]? = some T → leafOn q T = some a → r ∉ m.stack → a.un = true
  empty : ∀ {r T q a}, s.roots[r]? = some T → leafOn q T = some a → r ∈ m.stack → m.full r q = false → a.ab = true
  filled : ∀ {r T q a}, s.roots[r]? = some T → leafOn q T = some a → r ∈ m.stack → m.full r q = true → a.ln = true ∨ a.ld = true
  tok : ∀ {t r q}, m.tok t = .at r q → r ∈ m.stack ∧ ∃ R T a, F.ty r = some R ∧ s.roots[r]? = some T ∧ leafOn q T = some a ∧
    a.ld = true ∧ Ty.room q R = true
  kept : ∀ t, m.tok t ≠ .lost
  marks : ∀ k, Marked F.roots.length (findMark k s.marks) (m.marks k)
  opens : ∀ j, j ∈ s.opens ↔ m.opens j = true

theorem upd_get {s : State} {r : Nat} {T : Tree} (h : s.roots[r]? = some T) (f : Tree → Tree) (r' : Nat) :
    (s.upd r f).roots[r']? = if r = r' then some (f T) else s.roots[r']? := by
  have hlt := (List.getElem?_eq_some_iff.1 h).1
  simp only [State.upd, h, List.getElem?_set, hlt, if_true]

theorem upd_len (s : State) (r : Nat) (f : Tree → Tree) : (s.upd r f).roots.length = s.roots.length := by
  unfold State.upd; split <;> simp

theorem upd_marks (s : State) (r : Nat) (f : Tree → Tree) : (s.upd r f).marks = s.marks := by
  unfold State.upd; split <;> rfl

theorem upd_opens (s : State) (r : Nat) (f : Tree → Tree) : (s.upd r f).opens = s.opens := by
  unfold State.upd; split <;> rfl

theorem Good.upd {F : Func} {s : State} (h : Good F s) {r : Nat} {f : Tree → Tree}
    (hf : ∀ {T R}, s.roots[r]? = some T → F.ty r = some R → T.Of R → T.Joined → (f T).Of R ∧ (f T).Joined) :
    Good F (s.upd r f) := by
  refine ⟨by rw [upd_len, h.len], ?_⟩
  intro r' T R hT hR
  cases hr : s.roots[r]? with
  | none =>
    have : s.upd r f = s := by simp only [State.upd, hr]
    rw [this] at hT
    exact h.tree hT hR
  | some T0 =>
    rw [upd_get hr] at hT
    by_cases e : r = r'
    · subst e
      rw [if_pos rfl, Option.some.injEq] at hT
      subst hT
      obtain ⟨h1, h2⟩ := h.tree hr hR
      exact hf hr hR h1 h2
    · rw [if_neg e] at hT
      exact h.tree hT hR

/-- The storage at a path becomes what `Y` says. -/
theorem Rel.write {F : Func} {s : State} {m m' : Mem} (h : Rel F s m) {r : Nat} {p : List Nat} {R : Ty} {T X : Tree}
    {f : Tree → Tree} {b : Bool} (hR : F.ty r = some R) (hT : s.roots[r]? = some T) (hX : Tree.atPath p T = some X)
    (hr : r ∈ m.stack) (hY : (f X).Of X.ty)
    (hb : ∀ {u a}, leafOn u (f X) = some a → if b = true then a.ln = true ∨ a.ld = true else a.ab = true)
    (hstack : m'.stack = m.stack) (hmarks : m'.marks = m.marks) (hopens : m'.opens = m.opens)
    (hin : ∀ u, m'.full r (p ++ u) = b)
    (hout : ∀ r' q, ¬ (r' = r ∧ p <+: q) → m'.full r' q = m.full r' q)
    (htok : ∀ t r' q, m'.tok t = .at r' q → (m.tok t = .at r' q ∧ ¬ (r' = r ∧ p <+: q)) ∨
      (r' = r ∧ ∃ u a, q = p ++ u ∧ leafOn u (f X) = some a ∧ a.ld = true ∧ Ty.room q R = true))
    (hlost : ∀ t, m'.tok t ≠ .lost) :
    Rel F (s.upd r fun t => match Tree.modify f p t with | some t' => t'.recompute | none => t) m' := by
  obtain ⟨hof, hj⟩ := h.good.tree hT hR
  obtain ⟨T', e1, e2, e3, e4, e5⟩ := change_spec hof hX hY
  have hget := upd_get hT (fun t => match Tree.modify f p t with | some t' => t'.recompute | none => t)
  simp only [e1] at hget
  have hnew : ∀ {r' T1 q a}, (s.upd r fun t => match Tree.modify f p t with | some t' => t'.recompute | none => t).roots[r']?
      = some T1 → leafOn q T1 = some a → (r' = r ∧ ∃ u, q = p ++ u ∧ leafOn u (f X) = some a) ∨
      (¬ (r' = r ∧ p <+: q) ∧ ∃ T0, s.roots[r']? = some T0 ∧ leafOn q T0 = some a) := by
    intro r' T1 q a h1 h2
    rw [hget] at h1
    by_cases e : r = r'
    · subst e
      rw [if_pos rfl, Option.some.injEq] at h1
      subst h1
      by_cases hp : p <+: q
      · obtain ⟨u, rfl⟩ := hp
        rw [e4] at h2
        exact Or.inl ⟨rfl, u, rfl, h2⟩
      · rw [e5 q hp] at h2
        exact Or.inr ⟨fun hh => hp hh.2, T, hT, h2⟩
    · rw [if_neg e] at h1
      exact Or.inr ⟨fun hh => e hh.1.symm, T1, h1, h2⟩
  refine ⟨?_, ?_, ?_, ?_, ?_, hlost, ?_, ?_⟩
  · refine h.good.upd ?_
    intro T1 R1 h1 h2 _ _
    rw [hT, Option.some.injEq] at h1
    rw [hR, Option.some.injEq] at h2
    subst h1; subst h2
    simp only [e1]
    exact ⟨e2, e3⟩
  · intro r' T1 q a h1 h2 h3
    rw [hstack] at h3
    rcases hnew h1 h2 with ⟨rfl, _⟩ | ⟨_, T0, h4, h5⟩
    · exact absurd hr h3
    · exact h.out h4 h5 h3
  · intro r' T1 q a h1 h2 h3 h4
    rw [hstack] at h3
    rcases hnew h1 h2 with ⟨rfl, u, rfl, h5⟩ | ⟨h6, T0, h5, h7⟩
    · rw [hin] at h4
      have := hb h5
      rw [h4] at this
      simpa using this
    · rw [hout _ _ h6] at h4
      exact h.empty h5 h7 h3 h4
  · intro r' T1 q a h1 h2 h3 h4
    rw [hstack] at h3
    rcases hnew h1 h2 with ⟨rfl, u, rfl, h5⟩ | ⟨h6, T0, h5, h7⟩
    · rw [hin] at h4
      have := hb h5
      rw [h4] at this
      simpa using this
    · rw [hout _ _ h6] at h4
      exact h.filled h5 h7 h3 h4
  · intro t r' q ht
    rw [hstack]
    rcases htok t r' q ht with ⟨h1, h2⟩ | ⟨rfl, u, a, rfl, h1, h2, h3⟩
    · obtain ⟨h3, R1, T1, a, h4, h5, h6, h7, h8⟩ := h.tok h1
      refine ⟨h3, R1, ?_⟩
      rw [hget]
      by_cases e : r = r'
      · subst e
        rw [hT, Option.some.injEq] at h5
        subst h5
        exact ⟨_, a, h4, if_pos rfl, by rw [e5 q (fun hp => h2 ⟨rfl, hp⟩)]; exact h6, h7, h8⟩
      · exact ⟨T1, a, h4, by rw [if_neg e]; exact h5, h6, h7, h8⟩
    · refine ⟨hr, R, T'.recompute, a, hR, by rw [hget, if_pos rfl], by rw [e4]; exact h1, h2, h3⟩
  · intro k
    rw [upd_marks, hmarks]
    exact h.marks k
  · intro j
    rw [upd_opens, hopens]
    exact h.opens j

theorem Rel.node {F : Func} {s : State} {m : Mem} (h : Rel F s m) {r : Nat} {p : List Nat} {X : Tree} (hX : s.get r p = some X) :
    ∃ R T x, F.ty r = some R ∧ s.roots[r]? = some T ∧ Tree.atPath p T = some X ∧ T.Of R ∧ T.Joined ∧ Ty.at p R = some x ∧
      X.Of x ∧ X.Joined ∧ X.ty = x := by
  simp only [State.get, Option.bind_eq_some_iff] at hX
  obtain ⟨T, h1, h2⟩ := hX
  obtain ⟨R, h3, h4, h5⟩ := h.good.ty h1
  obtain ⟨x, h6, h7⟩ := at_some p h4 h2
  exact ⟨R, T, x, h3, h1, h2, h4, h5, h6, h7, h5.at p h2, h7.ty⟩

theorem Rel.tracked {F : Func} {s : State} {m : Mem} (h : Rel F s m) {r : Nat} {p : List Nat} :
    Tracked F r p ↔ ∃ X, s.get r p = some X := by
  constructor
  · rintro ⟨R, x, h1, h2⟩
    obtain ⟨T, h3, h4, h5⟩ := h.good.has h1
    cases hX : Tree.atPath p T with
    | none => rw [at_none p h4 hX] at h2; cases h2
    | some X => exact ⟨X, by simp only [State.get, h3, Option.bind_some, hX]⟩
  · rintro ⟨X, hX⟩
    obtain ⟨R, T, x, h1, _, _, _, _, h2, _⟩ := h.node hX
    exact ⟨R, x, h1, h2⟩

/-- Allocated storage that is certainly allocated. -/
theorem Rel.alloc {F : Func} {s : State} {m : Mem} (h : Rel F s m) {r : Nat} {p : List Nat} {X : Tree} (hX : s.get r p = some X)
    (hu : X.st.un = false) : r ∈ m.stack := by
  obtain ⟨R, T, x, h1, h2, h3, h4, h5, h6, h7, h8, h9⟩ := h.node hX
  obtain ⟨u, a, h10⟩ := leaf_exists X
  by_contra hn
  have := h.out h2 (by rw [leafOn_at p u h3]; exact h10) hn
  have := (leaf_le u h8 h10).un this
  rw [hu] at this
  cases this

/-- Nothing that has to be dropped is in the storage. -/
theorem Rel.none_under {F : Func} {s : State} {m : Mem} (h : Rel F s m) {r : Nat} {p : List Nat} {X : Tree}
    (hX : s.get r p = some X) (hd : X.st.ld = false) (t : Nat) : ¬ Under r p (m.tok t) := by
  rintro ⟨u, hu⟩
  obtain ⟨R, T, x, h1, h2, h3, h4, h5, h6, h7, h8, h9⟩ := h.node hX
  obtain ⟨_, R', T', a, _, h10, h11, h12, _⟩ := h.tok hu
  rw [h2, Option.some.injEq] at h10
  subst h10
  rw [leafOn_at p u h3] at h11
  have := (leaf_le u h8 h11).ld h12
  rw [hd] at this
  cases this

theorem free_iff {a : Leaf} : a.free = true ↔ a.un = false ∧ a.ld = false := by
  simp [Leaf.free]

theorem live_iff {a : Leaf} : a.live = true ↔ (a.ln = true ∨ a.ld = true) ∧ a.ab = false ∧ a.un = false := by
  simp [Leaf.live, and_assoc]

theorem under_iff {r : Nat} {p : List Nat} {r' : Nat} {q : List Nat} : Under r p (.at r' q) ↔ r' = r ∧ p <+: q := by
  constructor
  · rintro ⟨s, hs⟩; cases hs; exact ⟨rfl, s, rfl⟩
  · rintro ⟨rfl, s, rfl⟩; exact ⟨s, rfl⟩

/-- Sending away nothing changes nothing. -/
theorem send_none {m : Mem} {r : Nat} {p : List Nat} (l : Loc) (h : ∀ t, ¬ Under r p (m.tok t)) : m.send r p l = m := by
  unfold Mem.send
  have : (fun t => if Under r p (m.tok t) then l else m.tok t) = m.tok := by
    funext t; rw [if_neg (h t)]
  rw [this]

theorem fill_in {m : Mem} {r : Nat} {p u : List Nat} {b : Bool} : (m.fill r p b).full r (p ++ u) = b := by
  simp [Mem.fill]

theorem fill_out {m : Mem} {r : Nat} {p : List Nat} {b : Bool} {r' : Nat} {q : List Nat} (h : ¬ (r' = r ∧ p <+: q)) :
    (m.fill r p b).full r' q = m.full r' q := by
  simp only [Mem.fill, if_neg h]

/-- The storage becomes absent. -/
theorem Rel.absent {F : Func} {s : State} {m : Mem} (h : Rel F s m) {r : Nat} {p : List Nat} {X : Tree}
    (hX : s.get r p = some X) (hr : r ∈ m.stack) {m' : Mem} {l : Loc} (hl : l = .gone ∨ (l = .lost ∧ X.st.ld = false))
    (hm : m' = (m.send r p l).fill r p false) : Rel F (s.upd r (Tree.setPath p .AB)) m' := by
  obtain ⟨R, T, x, h1, h2, h3, h4, h5, h6, h7, h8, h9⟩ := h.node hX
  subst hm
  refine Rel.write (f := Tree.setAll .AB) (b := false) h h1 h2 h3 hr ?_ ?_ rfl rfl rfl (fun u => fill_in)
    (fun r' q hq => by rw [fill_out hq]; rfl) ?_ ?_
  · rw [h9]; exact setAll_of h7
  · intro u a hu
    rw [setAll_leaf hu]
    simp [Leaf.AB]
  · intro t r' q ht
    simp only [Mem.fill, Mem.send] at ht
    split at ht
    · rcases hl with rfl | ⟨rfl, _⟩ <;> cases ht
    · rename_i hu
      refine Or.inl ⟨ht, fun he => hu ?_⟩
      rw [ht]; exact under_iff.2 he
  · intro t ht
    simp only [Mem.fill, Mem.send] at ht
    split at ht
    · rename_i hu
      rcases hl with rfl | ⟨rfl, hd⟩
      · cases ht
      · exact h.none_under hX hd t hu
    · exact h.kept t ht

/-- Reading definitely live storage is fine. -/
theorem Rel.read {F : Func} {s : State} {m : Mem} (h : Rel F s m) {r : Nat} {p : List Nat}
    (hs : ∀ X, s.get r p = some X → X.st.live = true) : ¬ BadRead F (.root r p) m := by
  rintro ⟨R, x, h1, h2, h3⟩
  obtain ⟨X, hX⟩ := h.tracked.1 ⟨R, x, h1, h2⟩
  obtain ⟨_, hab, hun⟩ := live_iff.1 (hs X hX)
  have hr := h.alloc hX hun
  rcases h3 with h3 | ⟨u, h3, h4⟩
  · exact h3 hr
  · obtain ⟨R', T, x', h1', h2', h3', h4', h5', h6', h7', h8', h9'⟩ := h.node hX
    rw [h1, Option.some.injEq] at h1'
    subst h1'
    rw [h2, Option.some.injEq] at h6'
    subst h6'
    have := leafOn_ends u h7'
    rw [h3] at this
    obtain ⟨a, ha⟩ := Option.isSome_iff_exists.1 this
    have hb := h.empty h2' (by rw [leafOn_at p u h3']; exact ha) hr h4
    have := (leaf_le u h8' ha).ab hb
    rw [hab] at this
    cases this

theorem live_read {F : Func} {s : State} {m : Mem} (h : Rel F s m) {r : Nat} {p : List Nat} {X : Tree} (hX : s.get r p = some X)
    (hs : X.st.live = true) {u : List Nat} {a : Leaf} (ha : leafOn u X = some a) : a.ln = true ∨ a.ld = true := by
  obtain ⟨R, T, x, h1, h2, h3, h4, h5, h6, h7, h8, h9⟩ := h.node hX
  obtain ⟨_, hab, hun⟩ := live_iff.1 hs
  have hr := h.alloc hX hun
  have hl : leafOn (p ++ u) T = some a := by rw [leafOn_at p u h3]; exact ha
  cases hf : m.full r (p ++ u) with
  | true => exact h.filled h2 hl hr hf
  | false =>
    have := (leaf_le u h8 ha).ab (h.empty h2 hl hr hf)
    rw [hab] at this
    cases this

/-- Writing to a tracked place: `tok'` are the values afterwards. -/
theorem Rel.put {F : Func} {s : State} {m m1 : Mem} (h : Rel F s m) {r : Nat} {p : List Nat} {X Y : Tree}
    (hX : s.get r p = some X) (hfree : X.st.free = true) (hY : Y.Of X.ty)
    (hlive : ∀ {u a}, leafOn u Y = some a → a.ln = true ∨ a.ld = true) (hm : Overwrite F r p m m1) {tok' : Nat → Loc}
    (htok : ∀ t r' q, tok' t = .at r' q → (m.tok t = .at r' q) ∨
      (r' = r ∧ ∃ u a R, q = p ++ u ∧ F.ty r = some R ∧ leafOn u Y = some a ∧ a.ld = true ∧ Ty.room q R = true))
    (hlost : ∀ t, tok' t ≠ .lost) :
    Rel F (s.upd r fun t => t.replace p Y) { m1 with tok := tok' } := by
  obtain ⟨R, T, x, h1, h2, h3, h4, h5, h6, h7, h8, h9⟩ := h.node hX
  obtain ⟨hun, hld⟩ := free_iff.1 hfree
  obtain ⟨R', hR', ⟨_, rfl⟩ | ⟨hn, _⟩⟩ := hm
  · refine Rel.write (m' := { ((m.send r p .lost).fill r p true) with tok := tok' }) (f := fun _ => Y) (b := true) h h1 h2 h3 (h.alloc hX hun) hY (fun hu => by simpa using hlive hu) rfl rfl rfl
      (fun u => ?_) (fun r' q hq => ?_) ?_ hlost
    · exact fill_in (m := m.send r p .lost)
    · exact (fill_out (m := m.send r p .lost) hq)
    · intro t r' q ht
      rcases htok t r' q ht with h10 | ⟨rfl, u, a, R1, h10, h11, h12, h13, h14⟩
      · refine Or.inl ⟨h10, fun he => ?_⟩
        exact h.none_under hX hld t (by rw [h10]; exact under_iff.2 he)
      · rw [h1, Option.some.injEq] at h11
        subst h11
        exact Or.inr ⟨rfl, u, a, h10, h12, h13, h14⟩
  · exact absurd (h.tracked.2 ⟨X, hX⟩) hn

/-- Writing inside an opaque value. -/
theorem Rel.opaquePut {F : Func} {s : State} {m m1 : Mem} (h : Rel F s m) {r : Nat} {p : List Nat} (hX : s.get r p = none)
    (hr : r ∈ m.stack) (hm : Overwrite F r p m m1) {tok' : Nat → Loc}
    (htok : ∀ t r' q, tok' t = .at r' q → (m.tok t = .at r' q) ∨
      (r' = r ∧ ∃ u R, q = p ++ u ∧ F.ty r = some R ∧ Ty.room q R = true))
    (hlost : ∀ t, tok' t ≠ .lost) :
    Rel F (s.markOpaque r p) { m1 with tok := tok' } := by
  obtain ⟨R, hR, ⟨ht, _⟩ | ⟨hn, rfl⟩⟩ := hm
  · obtain ⟨X, hX'⟩ := h.tracked.1 ht
    rw [hX] at hX'
    cases hX'
  obtain ⟨T, hT, hof, hj⟩ := h.good.has hR
  obtain ⟨x, hx⟩ := at_shell p R
  cases hY : Tree.atPath (Ty.shell p R) T with
  | none => rw [at_none _ hof hY] at hx; cases hx
  | some Y =>
    obtain ⟨x', hx', hYof⟩ := at_some _ hof hY
    rw [hx, Option.some.injEq] at hx'
    subst hx'
    have hYty := hYof.ty
    have hupd : s.markOpaque r p = s.upd r (fun t =>
        match Tree.modify (fun _ => live Y.ty) (Ty.shell p R) t with | some t' => t'.recompute | none => t) := by
      simp only [State.markOpaque, State.upd, hT, prefix_shell p hof, hY, Tree.replace]
      rfl
    rw [hupd]
    have hsh : Ty.shell p R <+: p := shell_prefix p R
    have hroom : ∀ u, Ty.room (Ty.shell p R ++ u) R = true → ∃ a, leafOn u (live Y.ty) = some a ∧ a.ld = true := by
      intro u hu
      have h1 := room_at _ _ _ u hx hu
      have h2 := room_ends _ _ h1
      rw [← leafOn_ends u (live_of x)] at h2
      obtain ⟨a, ha⟩ := Option.isSome_iff_exists.1 h2
      exact ⟨a, by rw [hYty]; exact ha, (live_leaf u x ha).2 h1⟩
    refine Rel.write (m' := { (m.fill r (Ty.shell p R) true) with tok := tok' }) (f := fun _ => live Y.ty) (b := true) h hR hT hY hr (by rw [hYty]; exact live_of x)
      (fun hu => by rw [hYty] at hu; simpa using (live_leaf _ x hu).1) rfl rfl rfl
      (fun u => fill_in (m := m)) (fun r' q hq => fill_out (m := m) hq) ?_ hlost
    intro t r' q ht
    rcases htok t r' q ht with h10 | ⟨rfl, u, R1, h10, h11, h12⟩
    · by_cases he : r' = r ∧ Ty.shell p R <+: q
      · obtain ⟨rfl, u, rfl⟩ := he
        obtain ⟨_, R1, _, _, h11, _, _, _, h12⟩ := h.tok h10
        rw [hR, Option.some.injEq] at h11
        subst h11
        obtain ⟨a, h13, h14⟩ := hroom u h12
        exact Or.inr ⟨rfl, u, a, rfl, h13, h14, h12⟩
      · exact Or.inl ⟨h10, he⟩
    · rw [hR, Option.some.injEq] at h11
      subst h11
      obtain ⟨v, hv⟩ := hsh
      have : q = Ty.shell p R ++ (v ++ u) := by rw [h10, ← List.append_assoc, hv]
      rw [this] at h12
      obtain ⟨a, h13, h14⟩ := hroom _ h12
      refine Or.inr ⟨rfl, v ++ u, a, this, h13, h14, ?_⟩
      rw [this]; exact h12

theorem room_live {R x : Ty} {p u : List Nat} (hx : Ty.at p R = some x) (h : Ty.room (p ++ u) R = true) :
    ∃ a, leafOn u (live x) = some a ∧ a.ld = true := by
  have h1 := room_at _ _ _ u hx h
  have h2 := room_ends _ _ h1
  rw [← leafOn_ends u (live_of x)] at h2
  obtain ⟨a, ha⟩ := Option.isSome_iff_exists.1 h2
  exact ⟨a, ha, (live_leaf u x ha).2 h1⟩

/-- Overwriting keeps the values when nothing is in the place. -/
theorem overwrite_tok {F : Func} {s : State} {m m1 : Mem} (h : Rel F s m) {r : Nat} {p : List Nat}
    (hfree : ∀ X, s.get r p = some X → X.st.free = true) (hm : Overwrite F r p m m1) : m1.tok = m.tok := by
  obtain ⟨R, hR, ⟨ht, rfl⟩ | ⟨hn, rfl⟩⟩ := hm
  · obtain ⟨X, hX⟩ := h.tracked.1 ht
    have := send_none .lost (h.none_under hX (free_iff.1 (hfree X hX)).2)
    rw [this]
    rfl
  · rfl

/-- `transfer_store`. -/
theorem Rel.store {F : Func} {s s' : State} {m : Mem} (h : Rel F s m) {needs : Bool} {dst : Place}
    (hs : s.store needs dst = some s') : ¬ BadWrite F dst m ∧ (¬ OddWrite F dst m → ∀ m', Put F needs dst m m' → Rel F s' m') := by
  cases dst with
  | outside =>
    simp only [State.store, Option.some.injEq] at hs
    subst hs
    refine ⟨fun hb => hb, fun _ m' hm => ?_⟩
    simp only [Put] at hm
    subst hm
    exact h
  | root r p =>
    simp only [State.store] at hs
    cases hX : s.get r p with
    | none =>
      rw [hX] at hs
      simp only [Option.some.injEq] at hs
      subst hs
      refine ⟨?_, ?_⟩
      · rintro ⟨hb, _⟩
        obtain ⟨X, hX'⟩ := h.tracked.1 hb
        rw [hX] at hX'; cases hX'
      · intro ho m' hm
        obtain ⟨m1, tok', h1, ⟨R, hR, h2⟩, _, rfl⟩ := hm
        have hr : r ∈ m.stack := by
          by_contra hn
          refine ho ⟨fun ht => ?_, hn⟩
          obtain ⟨X, hX'⟩ := h.tracked.1 ht
          rw [hX] at hX'; cases hX'
        have ht1 : m1.tok = m.tok := overwrite_tok h (fun X hX' => by rw [hX] at hX'; cases hX') h1
        refine h.opaquePut hX hr h1 ?_ ?_
        · intro t r' q ht
          rcases h2 t with h3 | ⟨_, u, h3, h4⟩
          · rw [h3, ht1] at ht; exact Or.inl ht
          · rw [h3] at ht; cases ht
            exact Or.inr ⟨rfl, u, R, rfl, hR, h4⟩
        · intro t ht
          rcases h2 t with h3 | ⟨_, u, h3, h4⟩
          · rw [h3, ht1] at ht; exact h.kept t ht
          · rw [h3] at ht; cases ht
    | some X =>
      rw [hX] at hs
      simp only at hs
      split at hs
      · rename_i hfree
        simp only [Option.some.injEq] at hs
        subst hs
        obtain ⟨R, T, x, h1, h2, h3, h4, h5, h6, h7, h8, h9⟩ := h.node hX
        refine ⟨fun hb => hb.2 (h.alloc hX (free_iff.1 hfree).1), fun _ m' hm => ?_⟩
        obtain ⟨m1, tok', h10, ⟨R', hR', h11⟩, h12, rfl⟩ := hm
        rw [h1, Option.some.injEq] at hR'
        subst hR'
        have ht1 : m1.tok = m.tok := overwrite_tok h (fun X' hX' => by
          rw [hX, Option.some.injEq] at hX'; subst hX'; exact hfree) h10
        refine h.put hX hfree ?_ ?_ h10 ?_ ?_
        · rw [h9]; split
          · exact live_of x
          · exact shaped_of _ x
        · intro u a hu
          rw [h9] at hu
          split at hu
          · exact (live_leaf u x hu).1
          · rw [shaped_leaf hu]; exact Or.inl rfl
        · intro t r' q ht
          cases needs with
          | false =>
            rw [h12 rfl, ht1] at ht
            exact Or.inl ht
          | true =>
            rcases h11 t with h13 | ⟨_, u, h13, h14⟩
            · rw [h13, ht1] at ht; exact Or.inl ht
            · rw [h13] at ht; cases ht
              obtain ⟨a, h15, h16⟩ := room_live h6 h14
              exact Or.inr ⟨rfl, u, a, R, rfl, h1, by rw [if_pos rfl, h9]; exact h15, h16, h14⟩
        · intro t ht
          rcases h11 t with h13 | ⟨_, u, h13, h14⟩
          · rw [h13, ht1] at ht; exact h.kept t ht
          · rw [h13] at ht; cases ht
      · cases hs

/-- `consume_place`. -/
theorem Rel.consume {F : Func} {s s' : State} {m : Mem} (h : Rel F s m) {p : Place} (hs : s.consume p = some s') :
    ¬ BadRead F p m ∧ Rel F s' (Take p m) := by
  cases p with
  | outside =>
    simp only [State.consume, Option.some.injEq] at hs
    subst hs
    exact ⟨fun hb => hb, h⟩
  | root r p =>
    simp only [State.consume] at hs
    cases hX : s.get r p with
    | none => rw [hX] at hs; cases hs
    | some X =>
      rw [hX] at hs
      simp only at hs
      split at hs
      · rename_i hl
        simp only [Option.some.injEq] at hs
        subst hs
        refine ⟨h.read (fun X' hX' => by rw [hX, Option.some.injEq] at hX'; subst hX'; exact hl), ?_⟩
        exact h.absent hX (h.alloc hX (live_iff.1 hl).2.2) (Or.inl rfl) rfl
      · cases hs

theorem Rel.consumeAll {F : Func} : ∀ (ps : List Place) {s s' : State} {m : Mem}, Rel F s m → s.consumeAll ps = some s' →
    ¬ BadTakes F ps m ∧ Rel F s' (TakeAll ps m)
  | [], s, s', m, h, hs => by
    simp only [State.consumeAll, Option.some.injEq] at hs
    subst hs
    exact ⟨fun hb => hb, h⟩
  | p :: rest, s, s', m, h, hs => by
    simp only [State.consumeAll, Option.bind_eq_some_iff] at hs
    obtain ⟨s1, h1, h2⟩ := hs
    obtain ⟨h3, h4⟩ := h.consume h1
    obtain ⟨h5, h6⟩ := Rel.consumeAll rest h4 h2
    exact ⟨fun hb => hb.elim h3 h5, h6⟩

/-- `transfer_drop`. -/
theorem Rel.drop {F : Func} {s s' : State} {m : Mem} (h : Rel F s m) {p : Place} (hs : s.drop p = some s') :
    ¬ BadWrite F p m ∧ Rel F s' (Take p m) := by
  cases p with
  | outside =>
    simp only [State.drop, Option.some.injEq] at hs
    subst hs
    exact ⟨fun hb => hb, h⟩
  | root r p =>
    simp only [State.drop] at hs
    cases hX : s.get r p with
    | none => rw [hX] at hs; cases hs
    | some X =>
      rw [hX] at hs
      simp only at hs
      split at hs
      · cases hs
      · rename_i hu
        simp only [Option.some.injEq] at hs
        subst hs
        have hr := h.alloc hX (by simpa using hu)
        exact ⟨fun hb => hb.2 hr, h.absent hX hr (Or.inl rfl) rfl⟩

/-- `transfer_clear`. -/
theorem Rel.clear {F : Func} {s s' : State} {m : Mem} (h : Rel F s m) {p : Place} (hs : s.clear p = some s') :
    ¬ BadWrite F p m ∧ ∀ m', Do F (.clear p) true m m' → Rel F s' m' := by
  cases p with
  | outside =>
    simp only [State.clear, Option.some.injEq] at hs
    subst hs
    refine ⟨fun hb => hb, fun m' hm => ?_⟩
    simp only [Do] at hm
    subst hm
    exact h
  | root r p =>
    simp only [State.clear] at hs
    cases hX : s.get r p with
    | none =>
      rw [hX] at hs
      simp only [Option.some.injEq] at hs
      subst hs
      have hn : ¬ Tracked F r p := fun ht => by
        obtain ⟨X, hX'⟩ := h.tracked.1 ht
        rw [hX] at hX'; cases hX'
      refine ⟨fun hb => hn hb.1, fun m' hm => ?_⟩
      simp only [Do] at hm
      rcases hm with ⟨ht, _⟩ | ⟨_, rfl⟩
      · exact absurd ht hn
      · exact h
    | some X =>
      rw [hX] at hs
      simp only at hs
      split at hs
      · rename_i hfree
        simp only [Option.some.injEq] at hs
        subst hs
        obtain ⟨hu, hd⟩ := free_iff.1 hfree
        have hr := h.alloc hX hu
        refine ⟨fun hb => hb.2 hr, fun m' hm => ?_⟩
        simp only [Do] at hm
        rcases hm with ⟨_, rfl⟩ | ⟨hn, _⟩
        · exact h.absent hX hr (Or.inr ⟨rfl, hd⟩) rfl
        · exact absurd (h.tracked.2 ⟨X, hX⟩) hn
      · cases hs

end Ferlium.Verify
