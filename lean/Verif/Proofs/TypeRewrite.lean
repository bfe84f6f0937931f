import Verif.Model.TypeRewrite
import Verif.Proofs.InternStore

/-! # Proofs about walks over types -/

namespace Ferlium.Intern

/-- The meaning of a rewriting. -/
def ruleTree (look : Look) (f : Rules) : Nat → Ref → Tree
  | 0, _ => .cut
  | n + 1, r =>
    match f.stop r with
    | some g => Intern.unfold look (n + 1) g
    | none =>
      match look (f.step r) with
      | none => .missing
      | some k => .node (f.head k.head) (k.kids.map (ruleTree look f n))

/-- How a reference is represented. -/
def Rep (f : Rules) (seen : List (Ref × Nat)) (r r' : Ref) : Prop :=
  (f.stop r = some r') ∨ (f.stop r = none ∧ ∃ i, seen.lookup (f.step r) = some i ∧ r' = .loc i)

/-- A kind of the output is complete. -/
def Filled (look : Look) (f : Rules) (s : Walk) (i : Nat) : Prop :=
  ∃ q k kids, s.seen.lookup q = some i ∧ look q = some k ∧ s.out[i]? = some ⟨f.head k.head, kids⟩ ∧
    List.Forall₂ (Rep f s.seen) k.kids kids

structure WalkOk (look : Look) (s : Walk) : Prop where
  idx : ∀ q i, s.seen.lookup q = some i → i < s.out.length
  inj : ∀ q q' i, s.seen.lookup q = some i → s.seen.lookup q' = some i → q = q'
  len : s.seen.length = s.out.length
  nodup : (s.seen.map (·.1)).Nodup
  valid : ∀ q ∈ s.seen.map (·.1), ∃ k, look q = some k

structure Grows (look : Look) (f : Rules) (s s' : Walk) : Prop where
  keep : ∀ q i, s.seen.lookup q = some i → s'.seen.lookup q = some i
  old : ∀ i, i < s.out.length → s'.out[i]? = s.out[i]?
  grow : s.out.length ≤ s'.out.length
  ok : WalkOk look s'
  filled : ∀ i, s.out.length ≤ i → i < s'.out.length → Filled look f s' i

/-- The rules lead to types that exist. -/
structure Fine (look : Look) (f : Rules) : Prop where
  stop : ∀ r k g, look r = some k → f.stop r = some g → ∃ k', look g = some k'
  step : ∀ r k, look r = some k → f.stop r = none → ∃ k', look (f.step r) = some k'

variable {look : Look} {f : Rules}

theorem Rep.mono {seen seen' : List (Ref × Nat)} (h : ∀ q i, seen.lookup q = some i → seen'.lookup q = some i)
    {r r' : Ref} (hr : Rep f seen r r') : Rep f seen' r r' := by
  rcases hr with hr | ⟨h1, i, h2, h3⟩
  · exact .inl hr
  · exact .inr ⟨h1, i, h _ _ h2, h3⟩

theorem forall2_imp {α β : Type} {R S : α → β → Prop} (h : ∀ a b, R a b → S a b) {l : List α} {l' : List β}
    (hl : List.Forall₂ R l l') : List.Forall₂ S l l' := by
  induction hl with
  | nil => exact .nil
  | cons hab _ ih => exact .cons (h _ _ hab) ih

theorem Grows.refl {s : Walk} (h : WalkOk look s) : Grows look f s s :=
  ⟨fun _ _ h => h, fun _ _ => rfl, Nat.le_refl _, h, fun i h1 h2 => absurd h2 (Nat.not_lt.2 h1)⟩

theorem Filled.grows {s s' : Walk} (h : Grows look f s s') {i : Nat} (hi : i < s.out.length)
    (hf : Filled look f s i) : Filled look f s' i := by
  obtain ⟨q, k, kids, h1, h2, h3, h4⟩ := hf
  exact ⟨q, k, kids, h.keep _ _ h1, h2, by rw [h.old i hi]; exact h3, forall2_imp (fun _ _ => Rep.mono h.keep) h4⟩

theorem Grows.trans {s s' s'' : Walk} (h : Grows look f s s') (h' : Grows look f s' s'') : Grows look f s s'' where
  keep q i hq := h'.keep _ _ (h.keep _ _ hq)
  old i hi := (h'.old i (Nat.lt_of_lt_of_le hi h.grow)).trans (h.old i hi)
  grow := Nat.le_trans h.grow h'.grow
  ok := h'.ok
  filled i h1 h2 := by
    by_cases hi : i < s'.out.length
    · exact (h.filled i h1 hi).grows h' hi
    · exact h'.filled i (Nat.not_lt.1 hi) h2

/-- What a walk over one reference does. -/
def VisitOk (look : Look) (f : Rules) (v : Walk → Ref → Option (Walk × Ref)) : Prop :=
  ∀ s r k s' r', WalkOk look s → look r = some k → v s r = some (s', r') →
    Grows look f s s' ∧ Rep f s'.seen r r'

theorem visitAll_ok {v : Walk → Ref → Option (Walk × Ref)} (hv : VisitOk look f v) :
    ∀ {rs : List Ref} {s s' : Walk} {rs' : List Ref}, WalkOk look s → (∀ r ∈ rs, ∃ k, look r = some k) →
      visitAll v s rs = some (s', rs') → Grows look f s s' ∧ List.Forall₂ (Rep f s'.seen) rs rs'
  | [], s, s', rs', hs, _, h => by
    simp only [visitAll, Option.some.injEq, Prod.mk.injEq] at h
    obtain ⟨rfl, rfl⟩ := h
    exact ⟨Grows.refl hs, .nil⟩
  | r :: rs, s, s', rs', hs, hr, h => by
    rw [visitAll] at h
    match h1 : v s r with
    | none => simp [h1] at h
    | some (s1, r1) =>
      simp only [h1] at h
      match h2 : visitAll v s1 rs with
      | none => simp [h2] at h
      | some (s2, rs2) =>
        simp only [h2, Option.some.injEq, Prod.mk.injEq] at h
        obtain ⟨rfl, rfl⟩ := h
        obtain ⟨k, hk⟩ := hr r List.mem_cons_self
        obtain ⟨g1, p1⟩ := hv s r k s1 r1 hs hk h1
        obtain ⟨g2, p2⟩ := visitAll_ok hv g1.ok (fun q hq => hr q (List.mem_cons_of_mem _ hq)) h2
        exact ⟨g1.trans g2, .cons (p1.mono g2.keep) p2⟩

theorem lookup_cons_self (q : Ref) (i : Nat) (l : List (Ref × Nat)) : ((q, i) :: l).lookup q = some i := by
  simp [List.lookup]

theorem lookup_cons_ne {q p : Ref} (h : p ≠ q) (i : Nat) (l : List (Ref × Nat)) :
    ((q, i) :: l).lookup p = l.lookup p := by
  have : (p == q) = false := by simpa using h
  simp [List.lookup, this]

theorem mem_of_lookup {q : Ref} {l : List (Ref × Nat)} (h : q ∈ l.map (·.1)) : ∃ i, l.lookup q = some i := by
  induction l with
  | nil => simp at h
  | cons a l ih =>
    obtain ⟨p, i⟩ := a
    by_cases hp : q = p
    · subst hp; exact ⟨i, lookup_cons_self _ _ _⟩
    · rw [lookup_cons_ne hp]
      refine ih ?_
      simpa [hp] using h

/-- The state with a new reference. -/
theorem WalkOk.push {s : Walk} (hs : WalkOk look s) {q : Ref} {k : Kind} (hq : look q = some k)
    (hn : s.seen.lookup q = none) (k0 : Kind) : WalkOk look ⟨s.out ++ [k0], (q, s.out.length) :: s.seen⟩ where
  idx p i h := by
    simp only [List.length_append, List.length_cons, List.length_nil]
    by_cases hp : p = q
    · subst hp; rw [lookup_cons_self] at h; cases h; omega
    · rw [lookup_cons_ne hp] at h
      have := hs.idx p i h; omega
  inj p p' i h h' := by
    by_cases hp : p = q <;> by_cases hp' : p' = q
    · rw [hp, hp']
    · subst hp; rw [lookup_cons_self] at h; cases h
      rw [lookup_cons_ne hp'] at h'
      have := hs.idx _ _ h'; omega
    · subst hp'; rw [lookup_cons_self] at h'; cases h'
      rw [lookup_cons_ne hp] at h
      have := hs.idx _ _ h; omega
    · rw [lookup_cons_ne hp] at h; rw [lookup_cons_ne hp'] at h'
      exact hs.inj _ _ _ h h'
  len := by simp [hs.len]
  nodup := by
    rw [List.map_cons, List.nodup_cons]
    refine ⟨fun hm => ?_, hs.nodup⟩
    obtain ⟨i, hi⟩ := mem_of_lookup hm
    rw [hn] at hi; cases hi
  valid p hp := by
    rcases List.mem_cons.1 hp with rfl | hp
    · exact ⟨k, hq⟩
    · exact hs.valid p hp

theorem visit_ok (hc : Closed look) (hf : Fine look f) : ∀ n, VisitOk look f (visit look f n)
  | 0 => by intro s r k s' r' _ _ h; simp [visit] at h
  | n + 1 => by
    intro s r k s' r' hs hr h
    rw [visit] at h
    match hst : f.stop r with
    | some g =>
      simp only [hst, Option.some.injEq, Prod.mk.injEq] at h
      obtain ⟨rfl, rfl⟩ := h
      exact ⟨Grows.refl hs, .inl hst⟩
    | none =>
      simp only [hst] at h
      match hl : s.seen.lookup (f.step r) with
      | some i =>
        simp only [hl, Option.some.injEq, Prod.mk.injEq] at h
        obtain ⟨rfl, rfl⟩ := h
        exact ⟨Grows.refl hs, .inr ⟨hst, i, hl, rfl⟩⟩
      | none =>
        obtain ⟨kq, hq⟩ := hf.step r k hr hst
        simp only [hl, hq] at h
        match hv : visitAll (visit look f n) ⟨s.out ++ [⟨.never, []⟩], (f.step r, s.out.length) :: s.seen⟩ kq.kids with
        | none => simp [hv] at h
        | some (s2, kids) =>
          simp only [hv, Option.some.injEq, Prod.mk.injEq] at h
          obtain ⟨rfl, rfl⟩ := h
          obtain ⟨g, p⟩ := visitAll_ok (visit_ok hc hf n) (hs.push hq hl _) (fun q hqk => hc _ _ hq q hqk) hv
          have hself : s2.seen.lookup (f.step r) = some s.out.length :=
            g.keep _ _ (lookup_cons_self _ _ _)
          have hlt : s.out.length < s2.out.length := by
            have := g.grow; simp only [List.length_append, List.length_cons, List.length_nil] at this; omega
          refine ⟨⟨?_, ?_, ?_, ?_, ?_⟩, .inr ⟨hst, _, hself, rfl⟩⟩
          · intro q i hqi
            refine g.keep _ _ ?_
            have hne : q ≠ f.step r := by rintro rfl; rw [hl] at hqi; cases hqi
            rw [lookup_cons_ne hne]; exact hqi
          · intro i hi
            have h1 := g.old i (by simp only [List.length_append, List.length_cons, List.length_nil]; omega)
            show (s2.out.set _ _)[i]? = _
            rw [List.getElem?_set_ne (by omega), h1]
            exact List.getElem?_append_left hi
          · simp only [List.length_set]; omega
          · exact ⟨fun q i h => by simpa using g.ok.idx q i h, g.ok.inj, by simpa using g.ok.len, g.ok.nodup, g.ok.valid⟩
          · intro i h1 h2
            simp only [List.length_set] at h2
            by_cases hi : i = s.out.length
            · subst hi
              exact ⟨f.step r, kq, kids, hself, hq, by simp [hlt], p⟩
            · obtain ⟨q, k', kids', e1, e2, e3, e4⟩ := g.filled i
                (by simp only [List.length_append, List.length_cons, List.length_nil]; omega) h2
              refine ⟨q, k', kids', e1, e2, ?_, e4⟩
              show (s2.out.set _ _)[i]? = _
              rw [List.getElem?_set_ne (fun e => hi e.symm)]; exact e3

/-! ## The depth suffices -/

/-- The references to some worlds. -/
def recRefs : Nat → List (List Kind) → List Ref
  | _, [] => []
  | w, l :: ls => (List.range l.length).map (Ref.glob (w + 1)) ++ recRefs (w + 1) ls

theorem recRefs_length : ∀ (w : Nat) (ls : List (List Kind)), (recRefs w ls).length = (ls.map List.length).sum
  | _, [] => rfl
  | w, l :: ls => by simp [recRefs, recRefs_length (w + 1) ls]

theorem recRefs_mem : ∀ (w : Nat) (ls : List (List Kind)) (j : Nat) (l : List Kind) (i : Nat), ls[j]? = some l →
    i < l.length → Ref.glob (w + j + 1) i ∈ recRefs w ls
  | w, l' :: ls, 0, l, i, h, hi => by
    simp only [List.getElem?_cons_zero, Option.some.injEq] at h
    subst h
    simp [recRefs, hi]
  | w, l' :: ls, j + 1, l, i, h, hi => by
    have := recRefs_mem (w + 1) ls j l i (by simpa using h) hi
    rw [recRefs]
    refine List.mem_append_right _ ?_
    have e : w + 1 + j + 1 = w + (j + 1) + 1 := by omega
    rw [← e]; exact this

theorem valid_mem {U : Universe} {r : Ref} {k : Kind} (h : U.look r = some k) :
    r ∈ (List.range U.main.length).map (Ref.glob 0) ++ recRefs 0 U.recs := by
  match r with
  | .loc i => cases h
  | .glob 0 i =>
    have : i < U.main.length := (List.getElem?_eq_some_iff.1 (h : U.main[i]? = some k)).1
    simp [this]
  | .glob (w + 1) i =>
    have h' : ((U.recs[w]?).getD [])[i]? = some k := h
    match hw : U.recs[w]? with
    | none => simp [hw] at h'
    | some l =>
      simp only [hw, Option.getD_some] at h'
      have hi := (List.getElem?_eq_some_iff.1 h').1
      have := recRefs_mem 0 U.recs w l i hw hi
      refine List.mem_append_right _ ?_
      have e : 0 + w + 1 = w + 1 := by omega
      rw [← e]; exact this

theorem WalkOk.bound {U : Universe} {s : Walk} (h : WalkOk U.look s) : s.out.length < U.depth := by
  have hsub : s.seen.map (·.1) ⊆ (List.range U.main.length).map (Ref.glob 0) ++ recRefs 0 U.recs := by
    intro q hq
    obtain ⟨k, hk⟩ := h.valid q hq
    exact valid_mem hk
  have := (List.subperm_of_subset h.nodup hsub).length_le
  rw [List.length_map, h.len, List.length_append, recRefs_length, List.length_map, List.length_range] at this
  unfold Universe.depth
  omega

theorem visitAll_total {v : Walk → Ref → Option (Walk × Ref)} (hv : VisitOk look f v) {m : Nat}
    (ht : ∀ s r k, WalkOk look s → look r = some k → m ≤ s.out.length → v s r ≠ none) :
    ∀ (rs : List Ref) (s : Walk), WalkOk look s → (∀ r ∈ rs, ∃ k, look r = some k) → m ≤ s.out.length →
      visitAll v s rs ≠ none
  | [], s, _, _, _ => by simp [visitAll]
  | r :: rs, s, hs, hr, hm => by
    obtain ⟨k, hk⟩ := hr r List.mem_cons_self
    rw [visitAll]
    match h1 : v s r with
    | none => exact absurd h1 (ht s r k hs hk hm)
    | some (s1, r1) =>
      obtain ⟨g1, _⟩ := hv s r k s1 r1 hs hk h1
      have := visitAll_total hv ht rs s1 g1.ok (fun q hq => hr q (List.mem_cons_of_mem _ hq))
        (Nat.le_trans hm g1.grow)
      match h2 : visitAll v s1 rs with
      | none => exact absurd h2 this
      | some (s2, rs2) => simp [h2]

theorem visit_total {U : Universe} (hc : Closed U.look) (hf : Fine U.look f) :
    ∀ (n : Nat) (s : Walk) (r : Ref) (k : Kind), WalkOk U.look s → U.look r = some k →
      U.depth - n ≤ s.out.length → visit U.look f n s r ≠ none
  | 0, s, r, k, hs, _, hm => by have := hs.bound; omega
  | n + 1, s, r, k, hs, hr, hm => by
    rw [visit]
    match hst : f.stop r with
    | some g => simp
    | none =>
      match hl : s.seen.lookup (f.step r) with
      | some i => simp [hl]
      | none =>
        obtain ⟨kq, hq⟩ := hf.step r k hr hst
        have := visitAll_total (visit_ok hc hf n) (m := U.depth - n)
          (fun s r k hs hr hm => visit_total hc hf n s r k hs hr hm) kq.kids
          ⟨s.out ++ [⟨.never, []⟩], (f.step r, s.out.length) :: s.seen⟩ (hs.push hq hl _)
          (fun q hqk => hc _ _ hq q hqk)
          (by simp only [List.length_append, List.length_cons, List.length_nil]; omega)
        simp only [hl, hq]
        match hv : visitAll (visit U.look f n) ⟨s.out ++ [⟨.never, []⟩], (f.step r, s.out.length) :: s.seen⟩ kq.kids with
        | none => exact absurd hv this
        | some (s2, kids) => simp [hv]

theorem WalkOk.start (look : Look) : WalkOk look ⟨[], []⟩ :=
  ⟨by simp, by simp, rfl, by simp, by simp⟩

theorem walk_spec {U : Universe} (hc : Closed U.look) (hf : Fine U.look f) {rs : List Ref}
    (hr : ∀ r ∈ rs, ∃ k, U.look r = some k) :
    ∃ s rs', walk U f rs = some (s, rs') ∧ WalkOk U.look s ∧ (∀ i, i < s.out.length → Filled U.look f s i) ∧
      List.Forall₂ (Rep f s.seen) rs rs' := by
  have ht := visitAll_total (visit_ok hc hf U.depth) (m := 0)
    (fun s r k hs hr _ => visit_total hc hf U.depth s r k hs hr (by omega)) rs ⟨[], []⟩ (WalkOk.start _) hr
    (Nat.zero_le _)
  match hv : visitAll (visit U.look f U.depth) ⟨[], []⟩ rs with
  | none => exact absurd hv ht
  | some (s, rs') =>
    obtain ⟨g, p⟩ := visitAll_ok (visit_ok hc hf U.depth) (WalkOk.start _) hr hv
    exact ⟨s, rs', hv, g.ok, fun i hi => g.filled i (Nat.zero_le _) hi, p⟩

/-! ## Meaning of the output -/

theorem forall2_valid {R : Ref → Ref → Prop} {rs rs' : List Ref} (h : List.Forall₂ R rs rs')
    (hr : ∀ r ∈ rs, ∃ k, look r = some k) : List.Forall₂ (fun a b => R a b ∧ ∃ k, look a = some k) rs rs' := by
  induction h with
  | nil => exact .nil
  | cons hab _ ih =>
    exact .cons ⟨hab, hr _ List.mem_cons_self⟩ (ih fun a ha => hr a (List.mem_cons_of_mem _ ha))

theorem rep_tree {U U₂ : Universe} (hc : Closed U.look) {s : Walk} (hs : WalkOk U.look s)
    (hfill : ∀ i, i < s.out.length → Filled U.look f s i)
    (hg : ∀ r k g, U.look r = some k → f.stop r = some g → Same (batch U₂ s.out) U.look g g) :
    ∀ (n : Nat) (r r' : Ref) (k : Kind), U.look r = some k → Rep f s.seen r r' →
      Intern.unfold (batch U₂ s.out) n r' = ruleTree U.look f n r
  | 0, _, _, _, _, _ => rfl
  | n + 1, r, r', k, hk, hr => by
    rw [ruleTree]
    rcases hr with hr | ⟨h1, i, h2, rfl⟩
    · rw [hr]; exact hg r k r' hk hr (n + 1)
    · obtain ⟨q, kq, kids, e1, e2, e3, e4⟩ := hfill i (hs.idx _ _ h2)
      obtain rfl := hs.inj _ _ _ h2 e1
      rw [h1]
      simp only [e2]
      have : batch U₂ s.out (.loc i) = some ⟨f.head kq.head, kids⟩ := e3
      rw [Intern.unfold]
      simp only [this, Tree.node.injEq, true_and]
      refine (map_eq_of_forall2 (R := fun a b => Rep f s.seen a b ∧ ∃ k, U.look a = some k) ?_ ?_).symm
      · rintro a b ⟨hab, ka, hka⟩
        exact (rep_tree hc hs hfill hg n a b ka hka hab).symm
      · exact forall2_valid e4 (hc _ _ e2)

theorem rep_exists {U U₂ : Universe} {s : Walk} (hs : WalkOk U.look s)
    (hg : ∀ r k g, U.look r = some k → f.stop r = some g → ∃ k', batch U₂ s.out g = some k')
    {r r' : Ref} {k : Kind} (hk : U.look r = some k) (hr : Rep f s.seen r r') :
    ∃ k', batch U₂ s.out r' = some k' := by
  rcases hr with hr | ⟨_, i, h2, rfl⟩
  · exact hg r k r' hk hr
  · exact ⟨s.out[i]'(hs.idx _ _ h2), List.getElem?_eq_getElem (hs.idx _ _ h2)⟩

/-- The rules keep the names of fields. -/
def KeepsNames (f : Rules) : Prop :=
  ∀ (k : Kind) (kids : List Ref), k.Sorted → kids.length = k.kids.length → (⟨f.head k.head, kids⟩ : Kind).Sorted

theorem out_sorted {eff : Nat → List (List Nat)} {U : Universe} (hI : Inv eff U) (hn : KeepsNames f) {s : Walk}
    (hfill : ∀ i, i < s.out.length → Filled U.look f s i) : ∀ k ∈ s.out, k.Sorted := by
  intro k hk
  obtain ⟨i, hi, rfl⟩ := List.mem_iff_getElem.1 hk
  obtain ⟨q, kq, kids, _, e2, e3, e4⟩ := hfill i hi
  rw [List.getElem?_eq_getElem hi, Option.some.injEq] at e3
  rw [e3]
  exact hn kq kids (hI.effects _ _ e2).2 e4.length_eq.symm

theorem out_normal {eff : Nat → List (List Nat)} {U : Universe} (hI : Inv eff U) (hn : KeepsNames f) {s : Walk}
    (hfill : ∀ i, i < s.out.length → Filled U.look f s i) : s.out.map Kind.normalize = s.out := by
  have := out_sorted hI hn hfill
  conv_rhs => rw [← List.map_id s.out]
  exact List.map_congr_left fun k hk => normalize_of_sorted (this k hk)

theorem out_exist {U U₂ : Universe} (hc : Closed U.look) {s : Walk} (hs : WalkOk U.look s)
    (hfill : ∀ i, i < s.out.length → Filled U.look f s i)
    (hg : ∀ r k g, U.look r = some k → f.stop r = some g → ∃ k', batch U₂ s.out g = some k') :
    ∀ k ∈ s.out, ∀ r ∈ k.kids, ∃ k', batch U₂ s.out r = some k' := by
  intro k hk r hr
  obtain ⟨i, hi, rfl⟩ := List.mem_iff_getElem.1 hk
  obtain ⟨q, kq, kids, _, e2, e3, e4⟩ := hfill i hi
  rw [List.getElem?_eq_getElem hi, Option.some.injEq] at e3
  rw [e3] at hr
  obtain ⟨a, ha, hab⟩ := forall2_mem_right e4 hr
  obtain ⟨ka, hka⟩ := hc _ _ e2 a ha
  exact rep_exists hs hg hka hab

theorem batch_ext (U : Universe) (kinds : List Kind) : Ext U.look (batch U kinds) := by
  intro r k h
  cases r with
  | loc i => cases h
  | glob w i => exact h

theorem forall2_mapM {α : Type} {P : α → Ref → Prop} {g : Ref → Option Ref} :
    ∀ {l : List α} {l' : List Ref}, List.Forall₂ (fun a b => ∃ c, g b = some c ∧ P a c) l l' →
      ∃ l'', l'.mapM g = some l'' ∧ List.Forall₂ P l l''
  | [], [], _ => ⟨[], rfl, .nil⟩
  | a :: l, b :: l', .cons ⟨c, hc, hp⟩ h => by
    obtain ⟨l'', h1, h2⟩ := forall2_mapM h
    exact ⟨c :: l'', by simp [List.mapM_cons, hc, h1], .cons hp h2⟩

end Ferlium.Intern
