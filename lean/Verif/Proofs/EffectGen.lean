import Verif.Proofs.EffectSound

/-!
# Inference of bodies: every solution of the inclusions describes the statements
-/

namespace Ferlium.EffInfer

theorem den_le {θ : Nat → Prim → Prop} {a b : Eff} (h : a.Le b) {p : Prim} (hp : den θ a p) : den θ b p := by
  rcases hp with hp | ⟨v, hv, hp⟩
  · exact .inl (h.1 p hp)
  · exact .inr ⟨v, h.2 v hv, hp⟩

theorem den_union {θ : Nat → Prim → Prop} {a b : Eff} {p : Prim} :
    den θ (a.union b) p ↔ den θ a p ∨ den θ b p := by
  constructor
  · rintro (hp | ⟨v, hv, hp⟩)
    · exact ((Eff.has_union a b p).mp hp).imp .inl .inl
    · exact ((Eff.mem_union a b v).mp hv).imp (fun h => .inr ⟨v, h, hp⟩) (fun h => .inr ⟨v, h, hp⟩)
  · rintro (h | h)
    · exact den_le (Eff.le_union_left a b) h
    · exact den_le (Eff.le_union_right a b) h

theorem den_var {θ : Nat → Prim → Prop} {v : Nat} {p : Prim} : den θ (Eff.var v) p ↔ θ v p := by
  simp [den, Eff.var, Prims.has_none]

theorem den_ground {θ : Nat → Prim → Prop} {F : Prims} {p : Prim} : den θ (Eff.ground F) p ↔ F.has p = true := by
  simp [den, Eff.ground]

theorem den_empty {θ : Nat → Prim → Prop} {p : Prim} : ¬ den θ Eff.empty p := by
  simp [den, Eff.empty, Prims.has_none]

theorem den_inst (φ : Nat → Prim → Prop) (σ : List (Nat × Eff)) (e : Eff) (p : Prim) :
    den φ (e.inst σ) p ↔ den (fun v => den φ ((σ.lookup v).getD (Eff.var v))) e p := by
  have loop : ∀ (vs : List Nat) (a : Eff),
      den φ (vs.foldl (fun a v => a.union ((σ.lookup v).getD (Eff.var v))) a) p ↔
        den φ a p ∨ ∃ v ∈ vs, den φ ((σ.lookup v).getD (Eff.var v)) p := by
    intro vs
    induction vs with
    | nil => intro a; simp
    | cons v vs ih =>
      intro a
      rw [List.foldl_cons, ih, den_union]
      simp only [List.mem_cons, exists_eq_or_imp, or_assoc]
  unfold Eff.inst
  rw [loop, den_ground]
  rfl

/-- A valuation of the variables which respects the table. -/
structure Solution (φ : Nat → Prim → Prop) (t : Table) : Prop where
  same : ∀ a b, t.rep a = t.rep b → ∀ p, φ a p → φ b p
  vals : ∀ k e, t.val (t.rep k) = some e → ∀ p, den φ e p → φ k p

theorem Solution.earlier {φ : Nat → Prim → Prop} {t u : Table} (h : Solution φ u) (k : t.Grows u) : Solution φ t :=
  ⟨fun a b e => h.same a b (k.same a b e), fun v e he p hp => by
    obtain ⟨e', he', l⟩ := k.vals v e he
    exact h.vals v e' he' p (den_le l hp)⟩

/-- A valuation which also satisfies the inclusions. -/
structure Solves (φ : Nat → Prim → Prop) (g : Gen) : Prop where
  table : Solution φ g.table
  cons : ∀ c ∈ g.cons, ∀ p, den φ c.1 p → den φ c.2 p

/-- The invariant of the state of inference. -/
structure Gen.WF (g : Gen) : Prop where
  table : g.table.WF
  cons : ∀ c ∈ g.cons, c.1.Below g.table.next ∧ c.2.Below g.table.next

/-- What inference does to its state. -/
structure Gen.Ext (g g' : Gen) : Prop where
  grows : g.table.Grows g'.table
  next : g.table.next ≤ g'.table.next
  wf : g'.WF
  cons : ∀ c ∈ g.cons, c ∈ g'.cons

theorem Gen.Ext.refl {g : Gen} (h : g.WF) : g.Ext g := ⟨.refl _, le_refl _, h, fun _ h => h⟩

theorem Gen.Ext.trans {a b c : Gen} (h : a.Ext b) (k : b.Ext c) : a.Ext c :=
  ⟨h.grows.trans k.grows, le_trans h.next k.next, k.wf, fun x hx => k.cons x (h.cons x hx)⟩

theorem Solves.earlier {φ : Nat → Prim → Prop} {g g' : Gen} (h : Solves φ g') (k : g.Ext g') : Solves φ g :=
  ⟨h.table.earlier k.grows, fun c hc => h.cons c (k.cons c hc)⟩

theorem newKey_grows {t : Table} (h : t.WF) (v : Option Eff) : t.Grows (t.newKey v) := by
  refine ⟨fun _ _ h => h, fun k e he => ?_⟩
  refine ⟨e, ?_, Eff.Le.refl e⟩
  simp only [Table.newKey]
  have : t.rep k ≠ t.next := by
    intro hk
    rw [hk] at he
    rw [(h.out _ (le_refl _)).2] at he; cases he
  rw [if_neg this]; exact he

theorem Gen.WF.withTable {g : Gen} (h : g.WF) {t : Table} (ht : t.WF) (hg : g.table.Grows t)
    (hn : g.table.next ≤ t.next) : g.Ext ⟨t, g.cons⟩ :=
  ⟨hg, hn, ⟨ht, fun c hc => ⟨(h.cons c hc).1.mono hn, (h.cons c hc).2.mono hn⟩⟩, fun _ h => h⟩

theorem Gen.WF.include {g : Gen} (h : g.WF) {l u : Eff} (hl : l.Below g.table.next) (hu : u.Below g.table.next) :
    g.Ext (g.include l u) ∧ (g.include l u).table = g.table := by
  unfold Gen.include
  split
  · exact ⟨.refl h, rfl⟩
  · refine ⟨⟨.refl _, le_refl _, ⟨h.table, fun c hc => ?_⟩, fun c hc => List.mem_append.mpr (.inl hc)⟩, rfl⟩
    rcases List.mem_append.mp hc with hc | hc
    · exact h.cons c hc
    · simp only [List.mem_singleton] at hc; subst hc; exact ⟨hl, hu⟩

theorem Solves.include {φ : Nat → Prim → Prop} {g : Gen} {l u : Eff} (h : Solves φ (g.include l u)) {p : Prim}
    (hp : den φ l p) : den φ u p := by
  unfold Gen.include at h
  split at h
  · rename_i e; subst e; exact hp
  · exact h.cons (l, u) (List.mem_append.mpr (.inr (List.mem_singleton.mpr rfl))) p hp

/-- A union of effects contains them all. -/
theorem foldl_union_le (es : List Eff) (e : Eff) :
    e.Le (es.foldl Eff.union e) ∧ ∀ x ∈ es, x.Le (es.foldl Eff.union e) := by
  induction es generalizing e with
  | nil => exact ⟨.refl e, fun _ h => by cases h⟩
  | cons y es ih =>
    obtain ⟨a, b⟩ := ih (e.union y)
    refine ⟨(Eff.le_union_left e y).trans a, fun x hx => ?_⟩
    rcases List.mem_cons.mp hx with rfl | hx
    · exact (Eff.le_union_right e x).trans a
    · exact b x hx

theorem foldl_union_below {n : Nat} (es : List Eff) (e : Eff) (he : e.Below n) (hes : ∀ x ∈ es, x.Below n) :
    (es.foldl Eff.union e).Below n := by
  induction es generalizing e with
  | nil => exact he
  | cons y es ih =>
    exact ih _ (he.union (hes y List.mem_cons_self)) (fun x hx => hes x (List.mem_cons_of_mem _ hx))

theorem makeDep_spec {g : Gen} (h : g.WF) {es : List Eff} (hes : ∀ e ∈ es, e.Below g.table.next) :
    g.Ext ⟨(makeDep g.table es).2, g.cons⟩ ∧ (makeDep g.table es).1.Below (makeDep g.table es).2.next ∧
      ∀ φ, Solution φ (makeDep g.table es).2 → ∀ e ∈ es, ∀ p, den φ e p → den φ (makeDep g.table es).1 p := by
  match es with
  | [] => exact ⟨.refl h, fun v hv => by simp [makeDep, Eff.empty] at hv, fun _ _ _ hc => by cases hc⟩
  | [e] =>
    refine ⟨.refl h, hes e List.mem_cons_self, fun _ _ x hx p hp => ?_⟩
    simp only [List.mem_singleton] at hx; subst hx; exact hp
  | e :: y :: es =>
    have ub := foldl_union_below (y :: es) e (hes e List.mem_cons_self) (fun x hx => hes x (List.mem_cons_of_mem _ hx))
    have ule := foldl_union_le (y :: es) e
    have hle : ∀ x ∈ e :: y :: es, x.Le ((y :: es).foldl Eff.union e) := by
      intro x hx
      rcases List.mem_cons.mp hx with rfl | hx
      · exact ule.1
      · exact ule.2 x hx
    simp only [makeDep]
    generalize (y :: es).foldl Eff.union e = u at *
    split
    · exact ⟨.refl h, ub, fun φ _ x hx p hp => den_le (hle x hx) hp⟩
    · refine ⟨h.withTable (h.table.newKey (fun x hx => by cases hx; exact ub)) (newKey_grows h.table _)
        (Nat.le_succ _), Eff.below_var (Nat.lt_succ_self _), fun φ hφ x hx p hp => ?_⟩
      rw [den_var]
      refine hφ.vals _ u ?_ p (den_le (hle x hx) hp)
      simp only [Table.newKey]
      rw [(h.table.out _ (le_refl _)).1, if_pos rfl]

/-- The types of earlier functions: their effects mention the variables of their parameters only. -/
def DoneOK (S : List Scheme) : Prop := ∀ s ∈ S, ∀ v ∈ s.eff.vars, v ∈ inputVars s.params

theorem mem_inputVars (ps : List Eff) (v : Nat) : v ∈ inputVars ps ↔ ∃ e ∈ ps, v ∈ e.vars := by
  unfold inputVars
  induction ps with
  | nil => simp
  | cons e ps ih => simp only [List.foldr_cons, mem_foldr_insVar, ih, List.mem_cons, exists_eq_or_imp]

theorem freshSubst_spec (vs : List Nat) : ∀ {t : Table}, t.WF →
    t.Grows (freshSubst t vs).2 ∧ t.next ≤ (freshSubst t vs).2.next ∧ (freshSubst t vs).2.WF ∧
      ∀ v ∈ vs, ∃ k, (freshSubst t vs).1.lookup v = some (Eff.var k) ∧ t.next ≤ k ∧ k < (freshSubst t vs).2.next := by
  induction vs with
  | nil => intro t h; exact ⟨.refl t, le_refl _, h, fun _ h => by cases h⟩
  | cons v vs ih =>
    intro t h
    have w := h.newKey (v := none) (fun e he => by cases he)
    obtain ⟨a, b, c, d⟩ := ih w
    have hn : (t.newKey none).next = t.next + 1 := rfl
    refine ⟨(newKey_grows h none).trans a, by simp only [freshSubst]; omega, c, fun x hx => ?_⟩
    simp only [freshSubst, List.lookup_cons]
    by_cases hxv : x = v
    · subst hxv
      simp only [beq_self_eq_true]
      exact ⟨t.next, rfl, le_refl _, by omega⟩
    · have : (x == v) = false := by simpa using hxv
      simp only [this]
      obtain ⟨k, hk, h1, h2⟩ := d x ((List.mem_cons.mp hx).resolve_left hxv)
      exact ⟨k, hk, by omega, h2⟩

theorem inst_below {n : Nat} {σ : List (Nat × Eff)} {e : Eff}
    (h : ∀ v ∈ e.vars, ∃ k, σ.lookup v = some (Eff.var k) ∧ k < n) : (e.inst σ).Below n := by
  have loop : ∀ (vs : List Nat) (a : Eff), a.Below n →
      (∀ v ∈ vs, ∃ k, σ.lookup v = some (Eff.var k) ∧ k < n) →
      (vs.foldl (fun a v => a.union ((σ.lookup v).getD (Eff.var v))) a).Below n := by
    intro vs
    induction vs with
    | nil => intro a ha _; exact ha
    | cons v vs ih =>
      intro a ha hv
      obtain ⟨k, hk, hlt⟩ := hv v List.mem_cons_self
      refine ih _ (ha.union ?_) (fun w hw => hv w (List.mem_cons_of_mem _ hw))
      rw [hk]; exact Eff.below_var hlt
  exact loop e.vars _ (Eff.below_ground _ _) h

/-- The types in scope are well-formed. -/
structure Scope.WF (Γ : Scope) (n : Nat) : Prop where
  done : DoneOK Γ.done
  group : ∀ s ∈ Γ.group, s.eff.Below n ∧ ∀ e ∈ s.params, e.Below n
  params : ∀ e ∈ Γ.params, e.Below n

theorem Scope.WF.mono {Γ : Scope} {n m : Nat} (h : Γ.WF n) (k : n ≤ m) : Γ.WF m :=
  ⟨h.done, fun s hs => ⟨(h.group s hs).1.mono k, fun e he => ((h.group s hs).2 e he).mono k⟩,
    fun e he => (h.params e he).mono k⟩

/-- The final types `S` agree with those of the functions in scope, under the valuation `φ`: earlier
functions have theirs, and those of the group have instances. -/
structure Agree (S : List Scheme) (Γ : Scope) (φ : Nat → Prim → Prop) : Prop where
  group : ∀ (f : Nat) (s : Scheme), Γ.done.length ≤ f → Γ.group[f - Γ.done.length]? = some s →
    ∃ s', S[f]? = some s' ∧ ∃ θ : Nat → Prim → Prop,
      List.Forall₂ (fun e e' => ∀ p, den φ e p → den θ e' p) s.params s'.params ∧
      ∀ p, den θ s'.eff p → den φ s.eff p

theorem useFn_spec {S : List Scheme} {Γ : Scope} {f : Nat} {g : Gen} (hg : g.WF) (hΓ : Γ.WF g.table.next)
    (hS : ∀ (i : Nat) (s : Scheme), Γ.done[i]? = some s → S[i]? = some s)
    {s : Scheme} {t : Table} (h : useFn Γ f g.table = some (s, t)) :
    g.Ext ⟨t, g.cons⟩ ∧ s.eff.Below t.next ∧ (∀ e ∈ s.params, e.Below t.next) ∧
      ∀ φ, (Γ.done.length ≤ f → Agree S Γ φ) →
        ∃ s', S[f]? = some s' ∧ ∃ θ : Nat → Prim → Prop,
          List.Forall₂ (fun e e' => ∀ p, den φ e p → den θ e' p) s.params s'.params ∧
          ∀ p, den θ s'.eff p → den φ s.eff p := by
  unfold useFn at h
  split at h
  · rename_i s0 hs0
    simp only [Option.some.injEq, Prod.mk.injEq] at h
    obtain ⟨rfl, rfl⟩ := h
    obtain ⟨a, b, c, d⟩ := freshSubst_spec (inputVars s0.params) hg.table
    have hmem : s0 ∈ Γ.done := List.mem_of_getElem? hs0
    refine ⟨hg.withTable c a b, ?_, ?_, fun φ _ => ⟨s0, hS f s0 hs0, _, ?_, fun p hp => (den_inst φ _ _ p).mpr hp⟩⟩
    · refine inst_below (fun v hv => ?_)
      obtain ⟨k, hk, _, hlt⟩ := d v (hΓ.done s0 hmem v hv)
      exact ⟨k, hk, hlt⟩
    · intro e he
      obtain ⟨x, hx, rfl⟩ := List.mem_map.mp he
      refine inst_below (fun v hv => ?_)
      obtain ⟨k, hk, _, hlt⟩ := d v ((mem_inputVars _ _).mpr ⟨x, hx, hv⟩)
      exact ⟨k, hk, hlt⟩
    · simp only [List.forall₂_map_left_iff]
      exact List.forall₂_same.mpr fun e _ p hp => (den_inst φ _ _ p).mp hp
  · rename_i hnone
    obtain ⟨s0, hs0, e⟩ := Option.map_eq_some_iff.mp h
    simp only [Prod.mk.injEq] at e
    obtain ⟨rfl, rfl⟩ := e
    have hmem : s0 ∈ Γ.group := List.mem_of_getElem? hs0
    have hlen : Γ.done.length ≤ f := by simpa using hnone
    refine ⟨.refl hg, (hΓ.group s0 hmem).1, (hΓ.group s0 hmem).2, fun φ hφ => ?_⟩
    exact (hφ hlen).group f s0 hlen hs0

theorem forall₂_map_den {φ : Nat → Prim → Prop} {θ : Nat → Prim → Prop} {a b : List Eff}
    (h : List.Forall₂ (fun e e' => ∀ p, den φ e p → den θ e' p) a b) :
    List.Forall₂ (fun F G : Prim → Prop => ∀ p, F p → G p) (a.map (den φ)) (b.map (den θ)) := by
  induction h with
  | nil => exact .nil
  | cons h _ ih => exact .cons h ih

section
variable {S : List Scheme} {Γ : Scope}

mutual

theorem inferStmt_spec (hS : ∀ (i : Nat) (s : Scheme), Γ.done[i]? = some s → S[i]? = some s) :
    ∀ (s : Stmt) {g g' : Gen} {e : Eff}, g.WF → Γ.WF g.table.next → inferStmt Γ s g = some (e, g') →
      g.Ext g' ∧ e.Below g'.table.next ∧
      ∀ φ, (refersStmt Γ.done.length s = true → Agree S Γ φ) → Solves φ g' →
        StmtOK S (Γ.params.map (den φ)) s (den φ e)
  | .native e, g, g', x, hg, hΓ, h => by
    simp only [inferStmt, Option.some.injEq, Prod.mk.injEq] at h
    obtain ⟨rfl, rfl⟩ := h
    refine ⟨.refl hg, Eff.below_ground _ _, fun φ _ _ => ?_⟩
    simp only [StmtOK]
    exact fun p hp => den_ground.mpr hp
  | .callParam i, g, g', x, hg, hΓ, h => by
    simp only [inferStmt] at h
    split at h
    · cases h
    rename_i q hq
    simp only [Option.some.injEq, Prod.mk.injEq] at h
    obtain ⟨rfl, rfl⟩ := h
    have hqb := hΓ.params q (List.mem_of_getElem? hq)
    have w := hg.table.newKey (v := none) (fun e he => by cases he)
    have e1 := hg.withTable w (newKey_grows hg.table none) (Nat.le_succ _)
    obtain ⟨e2, ht⟩ := e1.wf.include (l := q) (u := Eff.var g.table.next) (hqb.mono (Nat.le_succ _))
      (Eff.below_var (Nat.lt_succ_self _))
    refine ⟨e1.trans e2, by rw [ht]; exact Eff.below_var (Nat.lt_succ_self _), fun φ _ hφ => ?_⟩
    simp only [StmtOK]
    exact ⟨den φ q, by simp [hq], fun p hp => hφ.include hp⟩
  | .callFn f args, g, g', x, hg, hΓ, h => by
    simp only [inferStmt] at h
    split at h
    · cases h
    rename_i s t hu
    obtain ⟨e1, b1, b2, k1⟩ := useFn_spec (S := S) hg hΓ hS hu
    split at h
    · cases h
    rename_i g2 ha
    obtain ⟨e2, k2⟩ := inferArgs_spec hS args (ps := s.params) e1.wf (hΓ.mono e1.next) b2 ha
    simp only [Option.some.injEq, Prod.mk.injEq] at h
    obtain ⟨rfl, rfl⟩ := h
    obtain ⟨e3, b3, k3⟩ := makeDep_spec e2.wf (es := [Eff.empty, s.eff]) (by
      intro e he
      simp only [List.mem_cons, List.not_mem_nil, or_false] at he
      rcases he with rfl | rfl
      · exact Eff.below_ground _ _
      · exact b1.mono e2.next)
    refine ⟨(e1.trans e2).trans e3, b3, fun φ hr hφ => ?_⟩
    simp only [refersStmt, Bool.or_eq_true, decide_eq_true_eq] at hr
    obtain ⟨s', hs', θ, hp, he⟩ := k1 φ (fun hlen => hr (.inl hlen))
    have ka := k2 φ (fun h => hr (.inr h)) (hφ.earlier e3)
    simp only [StmtOK]
    exact ⟨s', hs', θ, ArgsOK.mono (fun _ _ h => h) args (forall₂_map_den hp) ka,
      fun p hp => k3 φ hφ.table _ (by simp) p (he p hp)⟩

theorem inferArgs_spec (hS : ∀ (i : Nat) (s : Scheme), Γ.done[i]? = some s → S[i]? = some s) :
    ∀ (as : List Arg) {ps : List Eff} {g g' : Gen}, g.WF → Γ.WF g.table.next →
      (∀ e ∈ ps, e.Below g.table.next) → inferArgs Γ as ps g = some g' →
      g.Ext g' ∧
      ∀ φ, (refersArgs Γ.done.length as = true → Agree S Γ φ) → Solves φ g' →
        ArgsOK S (Γ.params.map (den φ)) as (ps.map (den φ))
  | [], ps, g, g', hg, hΓ, hps, h => by
    cases ps with
    | nil =>
      simp only [inferArgs, Option.some.injEq] at h
      subst h
      exact ⟨.refl hg, fun φ _ _ => by simp [ArgsOK]⟩
    | cons q ps => simp only [inferArgs] at h; cases h
  | a :: as, ps, g, g', hg, hΓ, hps, h => by
    cases ps with
    | nil => simp only [inferArgs] at h; cases h
    | cons q ps =>
      simp only [inferArgs] at h
      split at h
      · cases h
      rename_i e g1 h1
      obtain ⟨e1, b1, k1⟩ := inferArg_spec hS a hg hΓ h1
      obtain ⟨e2, ht⟩ := e1.wf.include b1 ((hps q List.mem_cons_self).mono e1.next)
      obtain ⟨e3, k3⟩ := inferArgs_spec hS as (ps := ps) e2.wf (by rw [ht]; exact hΓ.mono e1.next)
        (fun x hx => by rw [ht]; exact (hps x (List.mem_cons_of_mem _ hx)).mono e1.next) h
      refine ⟨(e1.trans e2).trans e3, fun φ hr hφ => ?_⟩
      simp only [refersArgs, Bool.or_eq_true] at hr
      simp only [ArgsOK, List.map_cons]
      refine ⟨_, _, rfl, ?_, k3 φ (fun h => hr (.inr h)) hφ⟩
      have k := k1 φ (fun h => hr (.inl h)) (hφ.earlier (e2.trans e3))
      exact ArgOK.mono (fun _ _ h => h) a (fun p hp => (hφ.earlier e3).include hp) k

theorem inferArg_spec (hS : ∀ (i : Nat) (s : Scheme), Γ.done[i]? = some s → S[i]? = some s) :
    ∀ (a : Arg) {g g' : Gen} {e : Eff}, g.WF → Γ.WF g.table.next → inferArg Γ a g = some (e, g') →
      g.Ext g' ∧ e.Below g'.table.next ∧
      ∀ φ, (refersArg Γ.done.length a = true → Agree S Γ φ) → Solves φ g' →
        ArgOK S (Γ.params.map (den φ)) a (den φ e)
  | .param j, g, g', x, hg, hΓ, h => by
    simp only [inferArg] at h
    obtain ⟨q, hq, e⟩ := Option.map_eq_some_iff.mp h
    simp only [Prod.mk.injEq] at e
    obtain ⟨rfl, rfl⟩ := e
    refine ⟨.refl hg, hΓ.params q (List.mem_of_getElem? hq), fun φ _ _ => ?_⟩
    simp only [ArgOK]
    exact ⟨den φ q, by simp [hq], fun p hp => hp⟩
  | .lam body, g, g', x, hg, hΓ, h => by
    simp only [inferArg] at h
    split at h
    · cases h
    rename_i es g1 h1
    obtain ⟨e1, b1, k1⟩ := inferStmts_spec hS body hg hΓ h1
    simp only [Option.some.injEq, Prod.mk.injEq] at h
    obtain ⟨rfl, rfl⟩ := h
    obtain ⟨e2, b2, k2⟩ := makeDep_spec e1.wf b1
    refine ⟨e1.trans e2, b2, fun φ hr hφ => ?_⟩
    simp only [ArgOK]
    exact k1 φ hr (hφ.earlier e2) _ (fun e he p hp => k2 φ hφ.table e he p hp)
  | .fn f, g, g', x, hg, hΓ, h => by
    simp only [inferArg] at h
    split at h
    · cases h
    rename_i s t hu
    obtain ⟨e1, b1, _, k1⟩ := useFn_spec (S := S) hg hΓ hS hu
    split at h
    · rename_i hps
      simp only [Option.some.injEq, Prod.mk.injEq] at h
      obtain ⟨rfl, rfl⟩ := h
      refine ⟨e1, b1, fun φ hr hφ => ?_⟩
      simp only [refersArg, decide_eq_true_eq] at hr
      obtain ⟨s', hs', θ, hp, he⟩ := k1 φ hr
      simp only [ArgOK]
      refine ⟨s', hs', ?_, θ, he⟩
      rw [hps] at hp
      cases hp' : s'.params with
      | nil => rfl
      | cons => rw [hp'] at hp; cases hp
    · cases h

theorem inferStmts_spec (hS : ∀ (i : Nat) (s : Scheme), Γ.done[i]? = some s → S[i]? = some s) :
    ∀ (ss : List Stmt) {g g' : Gen} {es : List Eff}, g.WF → Γ.WF g.table.next → inferStmts Γ ss g = some (es, g') →
      g.Ext g' ∧ (∀ e ∈ es, e.Below g'.table.next) ∧
      ∀ φ, (refersStmts Γ.done.length ss = true → Agree S Γ φ) → Solves φ g' →
        ∀ ε : Prim → Prop, (∀ e ∈ es, ∀ p, den φ e p → ε p) → StmtsOK S (Γ.params.map (den φ)) ss ε
  | [], g, g', es, hg, hΓ, h => by
    simp only [inferStmts, Option.some.injEq, Prod.mk.injEq] at h
    obtain ⟨rfl, rfl⟩ := h
    exact ⟨.refl hg, fun _ h => (by cases h), fun φ _ _ ε _ => by simp only [StmtsOK]⟩
  | s :: ss, g, g', es, hg, hΓ, h => by
    simp only [inferStmts] at h
    split at h
    · cases h
    rename_i e g1 h1
    obtain ⟨e1, b1, k1⟩ := inferStmt_spec hS s hg hΓ h1
    split at h
    · cases h
    rename_i es' g2 h2
    simp only [Option.some.injEq, Prod.mk.injEq] at h
    obtain ⟨rfl, rfl⟩ := h
    obtain ⟨e2, b2, k2⟩ := inferStmts_spec hS ss e1.wf (hΓ.mono e1.next) h2
    refine ⟨e1.trans e2, fun x hx => ?_, fun φ hr hφ ε hε => ?_⟩
    · rcases List.mem_cons.mp hx with rfl | hx
      · exact b1.mono e2.next
      · exact b2 x hx
    · simp only [refersStmts, Bool.or_eq_true] at hr
      simp only [StmtsOK]
      refine ⟨StmtOK.mono (fun _ _ h => h) s (hε e List.mem_cons_self) (k1 φ (fun h => hr (.inl h)) (hφ.earlier e2)),
        k2 φ (fun h => hr (.inr h)) hφ ε (fun x hx => hε x (List.mem_cons_of_mem _ hx))⟩

end
end

/-! ## The functions of a group -/

theorem unifyEffects_spec {g : Gen} (h : g.WF) {a b : Eff} (ha : a.Below g.table.next) (hb : b.Below g.table.next) :
    g.Ext ⟨(unifyEffects g.table a b).2, g.cons⟩ ∧
      (unifyEffects g.table a b).1.Below (unifyEffects g.table a b).2.next := by
  have single : ∀ {e : Eff} {v : Nat}, e.Below g.table.next → e.single = some v → v < g.table.next := by
    intro e v he hv
    have := Eff.single_eq hv
    subst this
    exact he v (by simp [Eff.var])
  unfold unifyEffects
  split
  · exact ⟨.refl h, ha.union hb⟩
  · rename_i v _ hv
    exact ⟨h.withTable (h.table.unionValue (single hb hv) ha) (unionValue_grows _ _ _) (le_refl _), ha⟩
  · rename_i v hv _
    exact ⟨h.withTable (h.table.unionValue (single ha hv) hb) (unionValue_grows _ _ _) (le_refl _), hb⟩
  · rename_i v w hv hw
    have hn : (g.table.union v w).next = g.table.next := by unfold Table.union; split <;> rfl
    exact ⟨h.withTable (h.table.union (single ha hv) (single hb hw)) (union_grows _ _ _) (le_of_eq hn.symm),
      fun x hx => by rw [hn]; exact ha x hx⟩

/-- Unifying the effects of a body with the variable of its function: the variable stands for them. -/
theorem unifyEffects_var {t : Table} {a : Eff} {k : Nat} :
    (unifyEffects t a (Eff.var k)).1 = a ∧
      ∀ φ, Solution φ (unifyEffects t a (Eff.var k)).2 → ∀ p, den φ a p → den φ (Eff.var k) p := by
  unfold unifyEffects
  rw [Eff.single_var]
  cases ha : a.single with
  | none =>
    refine ⟨rfl, fun φ hφ p hp => den_var.mpr ?_⟩
    obtain ⟨x, hx, l⟩ := unionValue_val t k a
    exact hφ.vals k x hx p (den_le l hp)
  | some v =>
    have := Eff.single_eq ha
    subst this
    refine ⟨rfl, fun φ hφ p hp => den_var.mpr ?_⟩
    exact hφ.same v k (union_same t v k) p (den_var.mp hp)

theorem inferDecl_spec {S : List Scheme} {done group : List Scheme} {s s' : Scheme} {d : Decl} {g g' : Gen}
    (hS : ∀ (i : Nat) (s : Scheme), done[i]? = some s → S[i]? = some s)
    (hg : g.WF) (hΓ : (⟨done, group, s.params⟩ : Scope).WF g.table.next) {k : Nat} (hk : s.eff = Eff.var k)
    (hkb : k < g.table.next) (h : inferDecl done group s d g = some (s', g')) :
    g.Ext g' ∧ s'.params = s.params ∧ s'.eff.Below g'.table.next ∧
      ∀ φ, Solves φ g' → (∀ p, den φ s'.eff p → den φ s.eff p) ∧
        ((refersStmts done.length d.body = true → Agree S ⟨done, group, s.params⟩ φ) →
          StmtsOK S (s.params.map (den φ)) d.body (den φ s'.eff)) := by
  unfold inferDecl at h
  split at h
  · cases h
  rename_i es g1 h1
  obtain ⟨e1, b1, k1⟩ := inferStmts_spec hS d.body hg hΓ h1
  simp only [Option.some.injEq, Prod.mk.injEq] at h
  obtain ⟨rfl, rfl⟩ := h
  obtain ⟨e2, b2, k2⟩ := makeDep_spec e1.wf b1
  have wrap : ∃ w, w = (if refersStmts done.length d.body then
      makeDep (makeDep g1.table es).2 [Eff.empty, (makeDep g1.table es).1] else makeDep g1.table es) ∧
      (⟨(makeDep g1.table es).2, g1.cons⟩ : Gen).Ext ⟨w.2, g1.cons⟩ ∧ w.1.Below w.2.next ∧
      ∀ φ, Solution φ w.2 → ∀ p, den φ (makeDep g1.table es).1 p → den φ w.1 p := by
    refine ⟨_, rfl, ?_⟩
    split
    · obtain ⟨e3, b3, k3⟩ := makeDep_spec e2.wf (es := [Eff.empty, (makeDep g1.table es).1]) (by
        intro e he
        simp only [List.mem_cons, List.not_mem_nil, or_false] at he
        rcases he with rfl | rfl
        · exact Eff.below_ground _ _
        · exact b2)
      exact ⟨e3, b3, fun φ hφ p hp => k3 φ hφ _ (by simp) p hp⟩
    · exact ⟨.refl e2.wf, b2, fun _ _ _ h => h⟩
  obtain ⟨w, hw, e3, b3, k3⟩ := wrap
  rw [← hw]
  have kb : k < w.2.next := lt_of_lt_of_le hkb (le_trans e1.next (le_trans e2.next e3.next))
  rw [hk]
  obtain ⟨e4, b4⟩ := unifyEffects_spec e3.wf (a := w.1) (b := Eff.var k) b3 (Eff.below_var kb)
  obtain ⟨u1, u2⟩ := unifyEffects_var (t := w.2) (a := w.1) (k := k)
  have e14 := ((e1.trans e2).trans e3).trans e4
  refine ⟨e14, rfl, b4, fun φ hφ => ?_⟩
  have hφ3 := hφ.earlier e4
  have hφ2 := hφ3.earlier e3
  refine ⟨fun p hp => ?_, fun hr => ?_⟩
  · dsimp only at hp
    rw [u1] at hp
    exact u2 φ hφ.table p hp
  · refine k1 φ hr (hφ2.earlier e2) _ (fun e he p hp => ?_)
    dsimp only
    rw [u1]
    exact k3 φ hφ3.table p (k2 φ hφ2.table e he p hp)

/-- The types of a group before its bodies are inferred. -/
def Declared (n : Nat) (ss : List Scheme) : Prop :=
  ∀ s ∈ ss, (∃ k, s.eff = Eff.var k ∧ k < n) ∧ ∀ e ∈ s.params, e.Below n

theorem inferDecls_spec {S : List Scheme} {done group : List Scheme}
    (hS : ∀ (i : Nat) (s : Scheme), done[i]? = some s → S[i]? = some s) (hdone : DoneOK done) :
    ∀ (ds : List Decl) {ss rs : List Scheme} {g g' : Gen}, g.WF → ss.length = ds.length →
      Declared g.table.next group → Declared g.table.next ss →
      inferDecls done group ss ds g = some (rs, g') →
      g.Ext g' ∧ rs.length = ds.length ∧ (∀ r ∈ rs, r.eff.Below g'.table.next) ∧
      ∀ (i : Nat) (d : Decl) (s r : Scheme), ds[i]? = some d → ss[i]? = some s → rs[i]? = some r →
        r.params = s.params ∧
        ∀ φ, Solves φ g' → (∀ p, den φ r.eff p → den φ s.eff p) ∧
          ((refersStmts done.length d.body = true → ∀ ps, Agree S ⟨done, group, ps⟩ φ) →
            StmtsOK S (s.params.map (den φ)) d.body (den φ r.eff))
  | [], ss, rs, g, g', hg, hl, hG, hD, h => by
    cases ss with
    | nil =>
      simp only [inferDecls, Option.some.injEq, Prod.mk.injEq] at h
      obtain ⟨rfl, rfl⟩ := h
      exact ⟨.refl hg, rfl, fun _ h => (by cases h), fun i d s r hd => by simp at hd⟩
    | cons => cases hl
  | d :: ds, ss, rs, g, g', hg, hl, hG, hD, h => by
    cases ss with
    | nil => cases hl
    | cons s ss =>
      simp only [inferDecls] at h
      split at h
      · cases h
      rename_i s1 g1 h1
      split at h
      · cases h
      rename_i rs' g2 h2
      simp only [Option.some.injEq, Prod.mk.injEq] at h
      obtain ⟨rfl, rfl⟩ := h
      obtain ⟨⟨k, hk, hkb⟩, hps⟩ := hD s List.mem_cons_self
      have hΓ : (⟨done, group, s.params⟩ : Scope).WF g.table.next := by
        refine ⟨hdone, fun x hx => ?_, hps⟩
        obtain ⟨⟨j, hj, hjb⟩, hxs⟩ := hG x hx
        exact ⟨by rw [hj]; exact Eff.below_var hjb, hxs⟩
      obtain ⟨e1, p1, b1, k1⟩ := inferDecl_spec hS hg hΓ hk hkb h1
      have up : ∀ {xs}, Declared g.table.next xs → Declared g1.table.next xs := by
        intro xs hx s hs
        obtain ⟨⟨j, hj, hjb⟩, hxs⟩ := hx s hs
        exact ⟨⟨j, hj, lt_of_lt_of_le hjb e1.next⟩, fun e he => (hxs e he).mono e1.next⟩
      obtain ⟨e2, l2, b2, k2⟩ := inferDecls_spec hS hdone ds e1.wf (by simpa using hl) (up hG)
        (up fun x hx => hD x (List.mem_cons_of_mem _ hx)) h2
      refine ⟨e1.trans e2, by simp [l2], fun r hr => ?_, fun i d' s' r hd hs hr => ?_⟩
      · rcases List.mem_cons.mp hr with rfl | hr
        · exact b1.mono e2.next
        · exact b2 r hr
      · cases i with
        | zero =>
          simp only [List.getElem?_cons_zero, Option.some.injEq] at hd hs hr
          subst hd hs hr
          exact ⟨p1, fun φ hφ => ⟨(k1 φ (hφ.earlier e2)).1, fun ha => (k1 φ (hφ.earlier e2)).2 (fun h => ha h _)⟩⟩
        | succ i =>
          simp only [List.getElem?_cons_succ] at hd hs hr
          exact k2 i d' s' r hd hs hr

theorem declParams_spec (ps : List (Option Prims)) : ∀ {t : Table}, t.WF →
    (declParams t ps).2.WF ∧ t.next ≤ (declParams t ps).2.next ∧
      (∀ e ∈ (declParams t ps).1, e.Below (declParams t ps).2.next) ∧ (declParams t ps).1.length = ps.length := by
  induction ps with
  | nil => intro t h; exact ⟨h, le_refl _, fun _ h => (by cases h), rfl⟩
  | cons p ps ih =>
    intro t h
    cases p with
    | some e =>
      obtain ⟨a, b, c, l⟩ := ih h
      refine ⟨a, b, fun x hx => ?_, by simp [declParams, l]⟩
      simp only [declParams, List.mem_cons] at hx
      rcases hx with rfl | hx
      · exact Eff.below_ground _ _
      · exact c x hx
    | none =>
      have w := h.newKey (v := none) (fun e he => by cases he)
      obtain ⟨a, b, c, l⟩ := ih w
      have hn : (t.newKey none).next = t.next + 1 := rfl
      refine ⟨a, by simp only [declParams]; omega, fun x hx => ?_, by simp [declParams, l]⟩
      simp only [declParams, List.mem_cons] at hx
      rcases hx with rfl | hx
      · exact Eff.below_var (by simp only [declParams]; omega)
      · exact c x hx

theorem declGroup_spec (ds : List Decl) : ∀ {t : Table}, t.WF →
    (declGroup t ds).2.WF ∧ t.next ≤ (declGroup t ds).2.next ∧
      Declared (declGroup t ds).2.next (declGroup t ds).1 ∧ (declGroup t ds).1.length = ds.length := by
  induction ds with
  | nil => intro t h; exact ⟨h, le_refl _, fun _ h => (by cases h), rfl⟩
  | cons d ds ih =>
    intro t h
    obtain ⟨a, b, c, _⟩ := declParams_spec d.params h
    have w := a.newKey (v := none) (fun e he => by cases he)
    obtain ⟨a', b', c', l'⟩ := ih w
    have hn : ((declParams t d.params).2.newKey none).next = (declParams t d.params).2.next + 1 := rfl
    refine ⟨a', by simp only [declGroup]; omega, fun s hs => ?_, by simp [declGroup, l']⟩
    simp only [declGroup, List.mem_cons] at hs
    rcases hs with rfl | hs
    · refine ⟨⟨_, rfl, by simp only [declGroup]; omega⟩, fun e he => (c e he).mono (by simp only [declGroup]; omega)⟩
    · exact c' s hs

end Ferlium.EffInfer
