import Verif.Proofs.EffectTable

/-!
# The solver of effect inclusions: growth, and what it guarantees of known effects
-/

namespace Ferlium.EffInfer

/-! ## Well-formedness is kept -/

theorem Eff.Below.union {n : Nat} {a b : Eff} (ha : a.Below n) (hb : b.Below n) : (a.union b).Below n :=
  fun v hv => ((Eff.mem_union a b v).mp hv).elim (ha v) (hb v)

theorem Eff.below_ground (n : Nat) (s : Prims) : (Eff.ground s).Below n := fun v hv => by simp [Eff.ground] at hv

theorem Eff.below_var {n v : Nat} (h : v < n) : (Eff.var v).Below n := fun w hw => by
  simp only [Eff.var, List.mem_singleton] at hw; subst hw; exact h

theorem Eff.Below.mono {n m : Nat} {e : Eff} (h : e.Below n) (k : n ≤ m) : e.Below m := fun v hv => lt_of_lt_of_le (h v hv) k

theorem passes_below {t : Table} (hw : t.WF) {e : Eff} (hb : e.Below t.next) {r : Nat} (h : Passes t e r) :
    r < t.next := by
  induction h with
  | here hv => exact hw.rep _ (hb _ hv)
  | step hv hx _ ih => exact ih (hw.vals _ _ hx)

theorem normalize_below {t : Table} (hw : t.WF) {e : Eff} (hb : e.Below t.next) : (normalize t e).Below t.next :=
  fun v hv => passes_below hw hb ((flat_sound false hw.flat _ [] [] e (fun _ _ h => by cases h)).2.1 v hv)

theorem Table.wf_empty : Table.empty.WF :=
  ⟨fun _ => rfl, fun _ h => h, fun _ _ => ⟨rfl, rfl⟩, fun _ _ h => by cases h⟩

theorem Table.WF.newKey {t : Table} (h : t.WF) {v : Option Eff} (hv : ∀ e, v = some e → e.Below t.next) :
    (t.newKey v).WF := by
  refine ⟨h.flat, fun k hk => ?_, fun k hk => ?_, fun k e he => ?_⟩
  · simp only [Table.newKey] at hk ⊢
    rcases Nat.lt_succ_iff_lt_or_eq.mp hk with hk | hk
    · exact Nat.lt_succ_of_lt (h.rep k hk)
    · subst hk; rw [(h.out _ (le_refl _)).1]; exact Nat.lt_succ_self _
  · simp only [Table.newKey] at hk ⊢
    refine ⟨(h.out k (by omega)).1, ?_⟩
    rw [if_neg (by omega)]; exact (h.out k (by omega)).2
  · simp only [Table.newKey] at he ⊢
    split at he
    · exact (hv e he).mono (Nat.le_succ _)
    · exact (h.vals k e he).mono (Nat.le_succ _)

theorem Table.WF.unionValue {t : Table} (h : t.WF) {v : Nat} (hv : v < t.next) {e : Eff} (he : e.Below t.next) :
    (t.unionValue v e).WF := by
  refine ⟨h.flat, h.rep, fun k hk => ?_, fun k x hx => ?_⟩
  · refine ⟨(h.out k hk).1, ?_⟩
    simp only [Table.unionValue]
    have := h.rep v hv
    have hk' : t.next ≤ k := hk
    rw [if_neg (by omega)]; exact (h.out k hk).2
  · simp only [Table.unionValue] at hx
    split at hx
    · cases hval : t.val k with
      | none => rw [hval] at hx; cases hx; exact he
      | some y => rw [hval] at hx; cases hx; exact (h.vals k y hval).union he
    · exact h.vals k x hx

theorem Table.WF.union {t : Table} (h : t.WF) {a b : Nat} (ha : a < t.next) (hb : b < t.next) :
    (t.union a b).WF := by
  unfold Table.union
  split
  · exact h
  rename_i hab
  have ra := h.rep a ha
  have rb := h.rep b hb
  refine ⟨fun k => ?_, fun k hk => ?_, fun k hk => ?_, fun k x hx => ?_⟩
  · simp only
    by_cases hk : t.rep k = t.rep a
    · simp only [hk, if_true, h.flat b, h.flat a]
      rw [if_neg (fun e => hab e.symm)]
    · simp only [hk, if_false, h.flat k]
  · simp only
    split
    · exact rb
    · exact h.rep k hk
  · have hk' : t.next ≤ k := hk
    simp only
    obtain ⟨h1, h2⟩ := h.out k hk
    rw [if_neg (by rw [h1]; omega), if_neg (by omega)]
    exact ⟨h1, h2⟩
  · simp only at hx
    split at hx
    · have m := hx
      cases h1 : t.val (t.rep a) with
      | none =>
        rw [h1] at hx
        cases h2 : t.val (t.rep b) with
        | none => rw [h2] at hx; cases hx
        | some y => rw [h2] at hx; cases hx; exact h.vals _ _ h2
      | some z =>
        rw [h1] at hx
        cases h2 : t.val (t.rep b) with
        | none => rw [h2] at hx; cases hx; exact h.vals _ _ h1
        | some y => rw [h2] at hx; cases hx; exact (h.vals _ _ h1).union (h.vals _ _ h2)
    · exact h.vals k x hx

theorem unionAll_wf {t : Table} (h : t.WF) {vs : List Nat} (hv : ∀ v ∈ vs, v < t.next) {e : Eff}
    (he : e.Below t.next) : (unionAll t vs e).WF ∧ (unionAll t vs e).next = t.next := by
  unfold unionAll
  induction vs generalizing t with
  | nil => exact ⟨h, rfl⟩
  | cons v vs ih =>
    exact ih (h.unionValue (hv v List.mem_cons_self) he) (fun w hw => hv w (List.mem_cons_of_mem _ hw)) he

/-! ## Growth of the solver -/

/-- A table reached from a well-formed one by the solver. -/
structure Table.Ext (t u : Table) : Prop where
  grows : t.Grows u
  wf : u.WF
  next : u.next = t.next

theorem Table.Ext.refl {t : Table} (h : t.WF) : t.Ext t := ⟨.refl t, h, rfl⟩

theorem Table.Ext.trans {t u w : Table} (h : t.Ext u) (k : u.Ext w) : t.Ext w :=
  ⟨h.grows.trans k.grows, k.wf, k.next.trans h.next⟩

theorem Table.WF.extValue {t : Table} (h : t.WF) {v : Nat} (hv : v < t.next) {e : Eff} (he : e.Below t.next) :
    t.Ext (t.unionValue v e) := ⟨unionValue_grows t v e, h.unionValue hv he, rfl⟩

/-- In every later table, `u` stands for all that `x` stands for. -/
def Leads (t : Table) (u x : Eff) : Prop := ∀ T, t.Grows T → ∀ p, Holds T x p → Holds T u p

theorem Leads.refl (t : Table) (u : Eff) : Leads t u u := fun _ _ _ h => h

theorem Leads.later {t t' : Table} {u x : Eff} (h : Leads t u x) (k : t.Grows t') : Leads t' u x :=
  fun T hT p hp => h T (k.trans hT) p hp

theorem passes_holds {t T : Table} (hf : t.Flat) (hg : t.Grows T) {u : Eff} {q : Nat} (h : Passes t u q) {x : Eff}
    {p : Prim} (hx : T.val (T.rep q) = some x) (hp : Holds T x p) : Holds T u p := by
  induction h with
  | @here e v hv =>
    have : T.rep (t.rep v) = T.rep v := hg.same _ _ (hf v)
    rw [this] at hx
    exact .step hv hx hp
  | step hv hy _ ih =>
    obtain ⟨y', hy', l⟩ := hg.vals _ _ hy
    exact .step hv hy' ((ih hx).mono l)

theorem leads_normalize {t : Table} (hf : t.Flat) (u : Eff) : Leads t u (normalize t u) := by
  intro T hT p hp
  have hs := flat_sound false hf (t.next + 1) [] [] u (fun _ _ h => by cases h)
  cases hp with
  | here h => exact hT.holds (hs.1 p h)
  | step hv hx h => exact passes_holds hf hT (hs.2.1 _ hv) hx h

theorem leads_mem {t : Table} {u x : Eff} {v : Nat} (h : Leads t u x) (hv : v ∈ x.vars) : Leads t u (Eff.var v) := by
  intro T hT p hp
  refine h T hT p (hp.mono ⟨fun q hq => by simp [Eff.var, Prims.has_none] at hq, fun w hw => ?_⟩)
  simp only [Eff.var, List.mem_singleton] at hw
  subst hw; exact hv

theorem Leads.trans {t : Table} {a b c : Eff} (h : Leads t a b) (k : Leads t b c) : Leads t a c :=
  fun T hT p hp => h T hT p (k T hT p hp)

/-- The state of the solver is well-formed. -/
structure Solver.WF (s : Solver) : Prop where
  table : s.table.WF
  pending : ∀ c ∈ s.pending, c.1.Below s.table.next ∧ c.2 < s.table.next
  deferred : ∀ c ∈ s.deferred, c.1.Below s.table.next ∧ c.2.Below s.table.next

/-- A step of the solver. -/
structure Solver.Step (s s' : Solver) : Prop where
  table : s.table.Ext s'.table
  wf : s'.WF
  pending : ∀ c ∈ s.pending, c ∈ s'.pending
  deferred : ∀ c ∈ s.deferred, c ∈ s'.deferred

theorem Solver.Step.refl {s : Solver} (h : s.WF) : s.Step s := ⟨.refl h.table, h, fun _ h => h, fun _ h => h⟩

theorem Solver.Step.trans {s s' s'' : Solver} (h : s.Step s') (k : s'.Step s'') : s.Step s'' :=
  ⟨h.table.trans k.table, k.wf, fun c hc => k.pending c (h.pending c hc), fun c hc => k.deferred c (h.deferred c hc)⟩

theorem Solver.WF.setTable {s : Solver} (h : s.WF) {t : Table} (k : s.table.Ext t) :
    s.Step { s with table := t } :=
  ⟨k, ⟨k.wf, fun c hc => by have := h.pending c hc; rw [k.next]; exact this,
    fun c hc => by have := h.deferred c hc; rw [k.next]; exact this⟩, fun _ h => h, fun _ h => h⟩

theorem Solver.WF.addPending {s : Solver} (h : s.WF) {ps : List (Eff × Nat)}
    (hp : ∀ c ∈ ps, c.1.Below s.table.next ∧ c.2 < s.table.next) :
    s.Step { s with pending := s.pending ++ ps } :=
  ⟨.refl h.table, ⟨h.table, fun c hc => (List.mem_append.mp hc).elim (h.pending c) (hp c), h.deferred⟩,
    fun _ hc => List.mem_append.mpr (.inl hc), fun _ h => h⟩

theorem Solver.WF.addDeferred {s : Solver} (h : s.WF) {d : Eff × Eff}
    (hd : d.1.Below s.table.next ∧ d.2.Below s.table.next) :
    s.Step { s with deferred := s.deferred ++ [d] } :=
  ⟨.refl h.table, ⟨h.table, h.pending, fun c hc => (List.mem_append.mp hc).elim (h.deferred c)
    (fun hc => by simp only [List.mem_singleton] at hc; subst hc; exact hd)⟩,
    fun _ h => h, fun _ hc => List.mem_append.mpr (.inl hc)⟩

theorem addNormalized_step {s : Solver} (h : s.WF) {l u : Eff} (hl : l.Below s.table.next)
    (hu : u.Below s.table.next) {d : Bool} {r : Bool × Solver} (hr : addNormalized s l u d = some r) :
    s.Step r.2 := by
  have single : ∀ {e : Eff} {v : Nat}, e.Below s.table.next → e.single = some v → v < s.table.next := by
    intro e v he hv
    have := Eff.single_eq hv
    subst this
    exact he v (by simp [Eff.var])
  have pend : ∀ {v : Nat}, v < s.table.next → s.Step { s with pending := s.pending ++ [(l, v)] } := by
    intro v hv
    refine h.addPending (fun c hc => ?_)
    simp only [List.mem_singleton] at hc; subst hc; exact ⟨hl, hv⟩
  unfold addNormalized at hr
  split at hr
  · cases hr; exact .refl h
  split at hr
  · cases hr
  · cases hr
    have w := unionAll_wf h.table (vs := l.vars) hl hu
    exact h.setTable ⟨unionAll_grows _ _ _, w.1, w.2⟩
  · split at hr
    · rename_i hv; cases hr; exact pend (single hu hv)
    · split at hr
      · cases hr; exact h.addDeferred ⟨hl, hu⟩
      · cases hr; exact .refl h
  · split at hr
    · rename_i hv; cases hr; exact h.setTable (h.table.extValue (single hl hv) hu)
    · split at hr
      · rename_i hv; cases hr; exact pend (single hu hv)
      · split at hr
        · cases hr; exact h.addDeferred ⟨hl, hu⟩
        · cases hr; exact .refl h

theorem tryAdd_step {s : Solver} (h : s.WF) {l u : Eff} (hl : l.Below s.table.next)
    (hu : u.Below s.table.next) {d : Bool} {r : Bool × Solver} (hr : tryAdd s l u d = some r) : s.Step r.2 := by
  have gen := fun hr => addNormalized_step h (normalize_below h.table hl) (normalize_below h.table hu) (d := d) (r := r) hr
  unfold tryAdd at hr
  split at hr
  · rename_i v hv
    have hv' := Eff.single_eq hv
    subst hv'
    have hlt : v < s.table.next := hl v (by simp [Eff.var])
    split at hr
    · split at hr
      · cases hr; exact .refl h
      · cases hr
        exact h.setTable (h.table.extValue (h.table.rep v hlt) (normalize_below h.table hu))
    · exact gen hr
  · exact gen hr

theorem materialize_step {s : Solver} (h : s.WF) {l u : Eff} (hl : l.Below s.table.next)
    (hu : u.Below s.table.next) {r : Solver} (hr : materialize s l u = some r) : s.Step r := by
  have hl' := normalize_below h.table hl
  have hu' := normalize_below h.table hu
  unfold materialize at hr
  simp only at hr
  split at hr
  · cases hr; exact .refl h
  split at hr
  · cases hr
  · cases hr
    have w := unionAll_wf h.table (vs := (normalize s.table l).vars) hl' hu'
    exact h.setTable ⟨unionAll_grows _ _ _, w.1, w.2⟩
  · cases hr
    refine h.addPending (fun c hc => ?_)
    obtain ⟨v, hv, rfl⟩ := List.mem_map.mp hc
    exact ⟨hl', hu' v hv⟩

theorem foldlM_expand {f : Table → Nat → Option Table}
    {vs : List Nat} {n : Nat} (hvs : ∀ v ∈ vs, v < n)
    (hf : ∀ t v T, t.WF → t.next = n → v < n → f t v = some T → t.Ext T) {t T : Table} (ht : t.WF) (hn : t.next = n)
    (h : vs.foldlM f t = some T) : t.Ext T := by
  induction vs generalizing t with
  | nil => cases h; exact .refl ht
  | cons v vs ih =>
    rw [List.foldlM_cons] at h
    cases h1 : f t v with
    | none => rw [h1] at h; cases h
    | some t1 =>
      rw [h1] at h
      have e1 := hf t v t1 ht hn (hvs v List.mem_cons_self) h1
      exact e1.trans (ih (fun w hw => hvs w (List.mem_cons_of_mem _ hw)) e1.wf (e1.next.trans hn) h)

/-- What expanding a dependency does: the table grows and the target gains the source. -/
theorem expand_ext {n : Nat} {t : Table} (h : t.WF) {source : Eff} (hs : source.Below t.next) {target : Nat}
    (ht : target < t.next) {vis : List Nat} {T : Table} (hr : expand n t source target vis = some T) :
    t.Ext T := by
  induction n generalizing t target vis T with
  | zero => cases hr
  | succ n ih =>
    unfold expand at hr
    simp only at hr
    have hlt := h.rep target ht
    have e1 : t.Ext (t.unionValue (t.rep target) (source.union (Eff.var (t.rep target)))) :=
      h.extValue hlt (hs.union (Eff.below_var hlt))
    split at hr
    · cases hr; exact e1
    split at hr
    · cases hr; exact e1
    rename_i e he
    have hb := h.vals _ _ he
    split at hr
    · cases hr; exact .refl h
    split at hr
    · cases hr
    have e2 : t.Ext (t.unionValue (t.rep target) (e.union source)) := h.extValue hlt (hb.union hs)
    refine e2.trans (foldlM_expand (n := t.next) hb ?_ e2.wf e2.next hr)
    intro t' v T' hw hn hv hT
    exact ih hw (by rw [hn]; exact hs) (by rw [hn]; exact hv) hT

theorem expand_gains {n : Nat} {t : Table} (h : t.WF) {F : Prims} {target : Nat}
    (ht : target < t.next) {vis : List Nat} {T : Table} (hr : expand n t (Eff.ground F) target vis = some T)
    {p : Prim} (hp : F.has p = true) : Holds T (Eff.var target) p := by
  have hext := expand_ext h (Eff.below_ground _ F) ht hr
  cases n with
  | zero => cases hr
  | succ n =>
    unfold expand at hr
    simp only at hr
    have hlt := h.rep target ht
    have key : ∀ e, (Eff.ground F).Le e → Holds (t.unionValue (t.rep target) e) (Eff.var target) p := by
      intro e he
      obtain ⟨x, hx, l⟩ := unionValue_val t (t.rep target) e
      refine .step (v := target) (by simp [Eff.var]) (x := x) ?_ (.here (l.1 p (he.1 p hp)))
      have : (t.unionValue (t.rep target) e).rep (t.rep target) = (t.unionValue (t.rep target) e).rep target :=
        h.flat target
      rw [← this]; exact hx
    split at hr
    · cases hr; exact key _ (Eff.le_union_left _ _)
    split at hr
    · cases hr; exact key _ (Eff.le_union_left _ _)
    rename_i e he
    have hb := h.vals _ _ he
    split at hr
    · rename_i hsub
      cases hr
      simp only [Eff.subsetOf, Bool.and_eq_true] at hsub
      exact .step (by simp [Eff.var]) he (.here ((Prims.sub_iff _ _).mp hsub.2 p hp))
    split at hr
    · cases hr
    have e2 : t.Ext (t.unionValue (t.rep target) (e.union (Eff.ground F))) :=
      h.extValue hlt (hb.union (Eff.below_ground _ F))
    have e3 : (t.unionValue (t.rep target) (e.union (Eff.ground F))).Ext T := by
      refine foldlM_expand (n := t.next) hb ?_ e2.wf e2.next hr
      intro t' v T' hw hn hv hT
      exact expand_ext hw (Eff.below_ground _ F) (by rw [hn]; exact hv) hT
    exact e3.grows.holds (key _ (Eff.le_union_right _ _))

theorem expandAll_ext {ps : List (Eff × Nat)} {t T : Table} (h : t.WF)
    (hp : ∀ c ∈ ps, c.1.Below t.next ∧ c.2 < t.next) (hr : expandAll t ps = some T) :
    t.Ext T ∧ ∀ F v, (Eff.ground F, v) ∈ ps → ∀ p, F.has p = true → Holds T (Eff.var v) p := by
  unfold expandAll at hr
  induction ps generalizing t with
  | nil => cases hr; exact ⟨.refl h, fun _ _ hc => by cases hc⟩
  | cons c ps ih =>
    rw [List.foldlM_cons] at hr
    cases h1 : expand (t.next + 1) t c.1 c.2 [] with
    | none => rw [h1] at hr; cases hr
    | some t1 =>
      rw [h1] at hr
      obtain ⟨hc1, hc2⟩ := hp c List.mem_cons_self
      have e1 := expand_ext h hc1 hc2 h1
      obtain ⟨e2, k⟩ := ih e1.wf (fun d hd => by rw [e1.next]; exact hp d (List.mem_cons_of_mem _ hd)) hr
      refine ⟨e1.trans e2, fun F v hv p hp' => ?_⟩
      rcases List.mem_cons.mp hv with hv | hv
      · subst hv
        exact e2.grows.holds (expand_gains h hc2 h1 hp')
      · exact k F v hv p hp'

/-! ## Known effects are included -/

/-- The inclusion of the known effects `F` in `u` is satisfied, or will be when the pending
dependencies and the deferred inclusions are. -/
def Sat (s : Solver) (F : Prims) (u : Eff) : Prop :=
  (∀ p, F.has p = true → Holds s.table u p) ∨
  (∃ v, (Eff.ground F, v) ∈ s.pending ∧ Leads s.table u (Eff.var v)) ∨
  ∃ u', (Eff.ground F, u') ∈ s.deferred ∧ Leads s.table u u'

theorem Sat.step {s s' : Solver} {F : Prims} {u : Eff} (h : Sat s F u) (k : s.Step s') : Sat s' F u := by
  rcases h with h | ⟨v, h, l⟩ | ⟨u', h, l⟩
  · exact .inl fun p hp => k.table.grows.holds (h p hp)
  · exact .inr (.inl ⟨v, k.pending _ h, l.later k.table.grows⟩)
  · exact .inr (.inr ⟨u', k.deferred _ h, l.later k.table.grows⟩)

theorem Sat.leads {s : Solver} {F : Prims} {u x : Eff} (h : Sat s F x) (k : Leads s.table u x) : Sat s F u := by
  rcases h with h | ⟨v, h, l⟩ | ⟨u', h, l⟩
  · exact .inl fun p hp => k _ (.refl _) p (h p hp)
  · exact .inr (.inl ⟨v, h, k.trans l⟩)
  · exact .inr (.inr ⟨u', h, k.trans l⟩)

theorem normalize_ground (t : Table) (F : Prims) : normalize t (Eff.ground F) = Eff.ground F := rfl

theorem single_ground (F : Prims) : (Eff.ground F).single = none := by
  unfold Eff.single Eff.ground
  by_cases h : F = Prims.none
  · rw [if_pos h]
  · rw [if_neg h]

/-- The trivial cases of an inclusion of known effects. -/
theorem trivial_holds {t : Table} {F : Prims} {u : Eff}
    (h : Eff.ground F = Eff.empty ∨ Eff.ground F = u ∨ (Eff.ground F).subsetOf u = true) {p : Prim}
    (hp : F.has p = true) : Holds t u p := by
  rcases h with h | h | h
  · have : F = Prims.none := congrArg Eff.prims h
    rw [this, Prims.has_none] at hp; cases hp
  · subst h; exact .here hp
  · simp only [Eff.subsetOf, Bool.and_eq_true] at h
    exact .here ((Prims.sub_iff _ _).mp h.2 p hp)

theorem tryAdd_ground {s : Solver} (h : s.WF) {F : Prims} {u : Eff} {d : Bool}
    {r : Bool × Solver} (hr : tryAdd s (Eff.ground F) u d = some r) (hd : r.1 = true) : Sat r.2 F u := by
  have lead := leads_normalize h.table.flat u
  unfold tryAdd at hr
  rw [single_ground] at hr
  simp only [normalize_ground] at hr
  unfold addNormalized at hr
  split at hr
  · rename_i ht
    cases hr
    exact .inl fun p hp => lead _ (.refl _) p (trivial_holds ht hp)
  split at hr
  · cases hr
  · rename_i hv _; cases hv
  · split at hr
    · rename_i v hv
      cases hr
      have := Eff.single_eq hv
      exact .inr (.inl ⟨v, by simp, by rw [this] at lead; exact lead⟩)
    · split at hr
      · cases hr
        exact .inr (.inr ⟨_, List.mem_append.mpr (.inr (List.mem_singleton.mpr rfl)), lead⟩)
      · cases hr; cases hd
  · rename_i hv _; cases hv

theorem materialize_ground {s : Solver} (h : s.WF) {F : Prims} {u : Eff}
    {r : Solver} (hr : materialize s (Eff.ground F) u = some r) :
    (∀ p, F.has p = true → Holds r.table u p) ∨
      ∃ v, (Eff.ground F, v) ∈ r.pending ∧ Leads r.table u (Eff.var v) := by
  have lead := leads_normalize h.table.flat u
  unfold materialize at hr
  have hn := normalize_ground s.table F
  generalize normalize s.table (Eff.ground F) = x at hr hn
  subst hn
  simp only at hr
  by_cases ht : Eff.ground F = Eff.empty ∨ Eff.ground F = normalize s.table u ∨
      (Eff.ground F).subsetOf (normalize s.table u) = true
  · rw [if_pos ht] at hr
    cases hr
    exact .inl fun p hp => lead _ (.refl _) p (trivial_holds ht hp)
  rw [if_neg ht] at hr
  cases hv : (normalize s.table u).vars with
  | nil => rw [hv] at hr; cases hr
  | cons v vs =>
    rw [hv] at hr
    have hr := Option.some.inj hr
    subst hr
    refine .inr ⟨v, ?_, leads_mem lead (by rw [hv]; simp)⟩
    simp

/-! ## Processing all inclusions -/

theorem addAll {cs : List (Eff × Eff)} {s s' : Solver} (h : s.WF)
    (hb : ∀ c ∈ cs, c.1.Below s.table.next ∧ c.2.Below s.table.next)
    (hr : cs.foldlM (fun s c => (tryAdd s c.1 c.2 true).map (·.2)) s = some s') :
    s.Step s' ∧ ∀ F u, (Eff.ground F, u) ∈ cs → Sat s' F u := by
  induction cs generalizing s with
  | nil => cases hr; exact ⟨.refl h, fun _ _ hc => by cases hc⟩
  | cons c cs ih =>
    rw [List.foldlM_cons] at hr
    cases h1 : tryAdd s c.1 c.2 true with
    | none => rw [h1] at hr; cases hr
    | some r =>
      rw [h1] at hr
      obtain ⟨b1, b2⟩ := hb c List.mem_cons_self
      have st := tryAdd_step h b1 b2 h1
      obtain ⟨k1, k2⟩ := ih st.wf (fun d hd => by rw [st.table.next]; exact hb d (List.mem_cons_of_mem _ hd)) hr
      refine ⟨st.trans k1, fun F u hc => ?_⟩
      rcases List.mem_cons.mp hc with hc | hc
      · subst hc
        have done : r.1 = true := by
          clear hr k1 k2 ih st
          unfold tryAdd at h1
          rw [single_ground] at h1
          simp only [normalize_ground] at h1
          unfold addNormalized at h1
          split at h1
          · cases h1; rfl
          split at h1
          · cases h1
          · cases h1; rfl
          · split at h1
            · cases h1; rfl
            · simp only [if_true] at h1; cases h1; rfl
          · rename_i hv _; cases hv
        exact (tryAdd_ground h h1 done).step k1
      · exact k2 F u hc

theorem retry_spec {ds : List (Eff × Eff)} {s : Solver} {r : Solver × List (Eff × Eff)} (h : s.WF)
    (hb : ∀ c ∈ ds, c.1.Below s.table.next ∧ c.2.Below s.table.next) (hr : retry s ds = some r) :
    s.Step r.1 ∧ (∀ c ∈ r.2, c ∈ ds) ∧
      ∀ F u, (Eff.ground F, u) ∈ ds → Sat r.1 F u ∨ (Eff.ground F, u) ∈ r.2 := by
  induction ds generalizing s r with
  | nil => cases hr; exact ⟨.refl h, fun _ h => h, fun _ _ hc => by cases hc⟩
  | cons c ds ih =>
    obtain ⟨l, u⟩ := c
    unfold retry at hr
    obtain ⟨b1, b2⟩ := hb (l, u) List.mem_cons_self
    split at hr
    · cases hr
    · rename_i s1 h1
      have st := tryAdd_step h b1 b2 h1
      obtain ⟨k1, k2, k3⟩ := ih st.wf
        (fun d hd => by have := hb d (List.mem_cons_of_mem _ hd); rw [st.table.next]; exact this) hr
      refine ⟨st.trans k1, fun d hd => List.mem_cons_of_mem _ (k2 d hd), fun F w hc => ?_⟩
      rcases List.mem_cons.mp hc with hc | hc
      · cases hc
        exact .inl ((tryAdd_ground h h1 rfl).step k1)
      · exact k3 F w hc
    · rename_i s1 h1
      have st := tryAdd_step h b1 b2 h1
      split at hr
      · cases hr
      · rename_i s2 rs h2
        cases hr
        obtain ⟨k1, k2, k3⟩ := ih st.wf
          (fun d hd => by have := hb d (List.mem_cons_of_mem _ hd); rw [st.table.next]; exact this) h2
        refine ⟨st.trans k1, fun d hd => ?_, fun F w hc => ?_⟩
        · rcases List.mem_cons.mp hd with hd | hd
          · subst hd; exact List.mem_cons_self
          · exact List.mem_cons_of_mem _ (k2 d hd)
        · rcases List.mem_cons.mp hc with hc | hc
          · cases hc; exact .inr List.mem_cons_self
          · exact (k3 F w hc).imp id (List.mem_cons_of_mem _)

theorem materializeAll {ds : List (Eff × Eff)} {s s' : Solver} (h : s.WF)
    (hb : ∀ c ∈ ds, c.1.Below s.table.next ∧ c.2.Below s.table.next)
    (hr : ds.foldlM (fun s d => materialize s d.1 d.2) s = some s') :
    s.Step s' ∧ ∀ F u, (Eff.ground F, u) ∈ ds → (∀ p, F.has p = true → Holds s'.table u p) ∨
      ∃ v, (Eff.ground F, v) ∈ s'.pending ∧ Leads s'.table u (Eff.var v) := by
  induction ds generalizing s with
  | nil => cases hr; exact ⟨.refl h, fun _ _ hc => by cases hc⟩
  | cons c ds ih =>
    rw [List.foldlM_cons] at hr
    cases h1 : materialize s c.1 c.2 with
    | none => rw [h1] at hr; cases hr
    | some s1 =>
      rw [h1] at hr
      obtain ⟨b1, b2⟩ := hb c List.mem_cons_self
      have st := materialize_step h b1 b2 h1
      obtain ⟨k1, k2⟩ := ih st.wf (fun d hd => by rw [st.table.next]; exact hb d (List.mem_cons_of_mem _ hd)) hr
      refine ⟨st.trans k1, fun F u hc => ?_⟩
      rcases List.mem_cons.mp hc with hc | hc
      · subst hc
        rcases materialize_ground h h1 with g | ⟨v, g, l⟩
        · exact .inl fun p hp => k1.table.grows.holds (g p hp)
        · exact .inr ⟨v, k1.pending _ g, l.later k1.table.grows⟩
      · exact k2 F u hc

/-- **The guarantee of the solver on known effects**: the table only grows, and every inclusion
whose lower side is made of known effects holds at the end. -/
theorem solve_spec {t T : Table} {cs : List (Eff × Eff)} (h : t.WF)
    (hb : ∀ c ∈ cs, c.1.Below t.next ∧ c.2.Below t.next) (hr : solve t cs = some T) :
    t.Ext T ∧ ∀ F u, (Eff.ground F, u) ∈ cs → ∀ p, F.has p = true → Holds T u p := by
  unfold solve at hr
  split at hr
  · cases hr
  rename_i s hs
  have h0 : (⟨t, [], []⟩ : Solver).WF := ⟨h, fun _ hc => (by cases hc), fun _ hc => (by cases hc)⟩
  obtain ⟨st, sat⟩ := addAll h0 hb hs
  unfold finish at hr
  split at hr
  · cases hr
  rename_i t1 h1
  obtain ⟨e1, g1⟩ := expandAll_ext st.wf.table st.wf.pending h1
  split at hr
  · cases hr
  rename_i s2 rs h2
  have w1 : ({ s with table := t1, pending := [], deferred := [] } : Solver).WF :=
    ⟨e1.wf, fun _ hc => (by cases hc), fun _ hc => (by cases hc)⟩
  have db : ∀ c ∈ s.deferred, c.1.Below t1.next ∧ c.2.Below t1.next := by
    intro c hc; rw [e1.next]; exact st.wf.deferred c hc
  obtain ⟨st2, sub2, sat2⟩ := retry_spec w1 db h2
  split at hr
  · cases hr
  rename_i s3 h3
  obtain ⟨st3, sat3⟩ := materializeAll st2.wf
    (fun c hc => by rw [st2.table.next]; exact db c (sub2 c hc)) h3
  obtain ⟨e4, g4⟩ := expandAll_ext st3.wf.table st3.wf.pending hr
  have x1 : s.table.Ext T := (e1.trans st2.table).trans (st3.table.trans e4)
  refine ⟨st.table.trans x1, fun F u hc p hp => ?_⟩
  have fin : ∀ u, Leads s3.table u u → ∀ v, (Eff.ground F, v) ∈ s3.pending → Leads s3.table u (Eff.var v) →
      Holds T u p := fun u _ v hv l => l T e4.grows p (g4 F v hv p hp)
  rcases sat F u hc with g | ⟨v, g, l⟩ | ⟨u', g, l⟩
  · exact x1.grows.holds (g p hp)
  · refine l T x1.grows p ?_
    exact ((st2.table.trans st3.table).trans e4).grows.holds (g1 F v g p hp)
  · refine l T x1.grows p ?_
    rcases sat2 F u' g with k | k
    · rcases k with k | ⟨v, k, m⟩ | ⟨w, k, m⟩
      · exact (st3.table.trans e4).grows.holds (k p hp)
      · exact m T (st3.table.trans e4).grows p (g4 F v (st3.pending _ k) p hp)
      · -- nothing is deferred while retrying
        exfalso
        have none : ∀ {ds : List (Eff × Eff)} {s : Solver} {r : Solver × List (Eff × Eff)},
            s.deferred = [] → retry s ds = some r → r.1.deferred = [] := by
          intro ds
          induction ds with
          | nil => intro s r h hr; cases hr; exact h
          | cons c ds ih =>
            intro s r h hr
            have keep : ∀ b s1, tryAdd s c.1 c.2 false = some (b, s1) → s1.deferred = [] := by
              intro b s1 h1
              have an : ∀ l u, addNormalized s l u false = some (b, s1) → s1.deferred = [] := by
                intro l u h1
                unfold addNormalized at h1
                simp only [Bool.false_eq_true, if_false] at h1
                split at h1
                · cases h1; exact h
                split at h1
                · cases h1
                · cases h1; exact h
                · split at h1 <;> cases h1 <;> exact h
                · split at h1
                  · cases h1; exact h
                  · split at h1 <;> cases h1 <;> exact h
              unfold tryAdd at h1
              split at h1
              · split at h1
                · split at h1 <;> cases h1 <;> exact h
                · exact an _ _ h1
              · exact an _ _ h1
            obtain ⟨l, u⟩ := c
            unfold retry at hr
            split at hr
            · cases hr
            · rename_i s1 h1; exact ih (keep _ _ h1) hr
            · rename_i s1 h1
              split at hr
              · cases hr
              · rename_i s2 rs h2
                cases hr
                exact ih (r := (s2, rs)) (keep _ _ h1) h2
        rw [none rfl h2] at k
        cases k
    · rcases sat3 F u' k with k | ⟨v, k, m⟩
      · exact e4.grows.holds (k p hp)
      · exact m T e4.grows p (g4 F v k p hp)

end Ferlium.EffInfer
