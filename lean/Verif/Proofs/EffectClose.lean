import Verif.Proofs.EffectDirect

/-!
# The final types of functions which call or forward their callbacks
-/

namespace Ferlium.EffInfer

/-! ## Flattening of the parameters -/

/-- Entries made of variables without value. -/
def CacheFree (T : Table) (c : Cache) : Prop :=
  ∀ r x, (r, x) ∈ c → x.prims = Prims.none ∧ (∀ p, ¬ Holds T (Eff.var r) p) ∧ ∀ v, v ∈ x.vars ↔ Free T (Eff.var r) v

theorem CacheFree.full {T : Table} {c : Cache} (h : CacheFree T c) : CacheFull T c := by
  intro r x hx
  obtain ⟨_, b, d⟩ := h r x hx
  exact ⟨fun p hp => absurd hp (b p), fun q hq => (d q).mpr hq⟩

theorem free_leaf {T : Table} {v : Nat} (hr : T.rep v = v) (hv : T.val v = none) (q : Nat) :
    Free T (Eff.var v) q ↔ q = v := by
  constructor
  · intro h
    cases h with
    | here hm hn =>
      simp only [Eff.var, List.mem_singleton] at hm
      subst hm; exact hr
    | step hm hx _ =>
      simp only [Eff.var, List.mem_singleton] at hm
      subst hm
      rw [hr, hv] at hx; cases hx
  · rintro rfl
    have := @Free.here T (Eff.var q) q (by simp [Eff.var]) (by rw [hr]; exact hv)
    rwa [hr] at this

theorem holds_leaf {T : Table} {v : Nat} (hr : T.rep v = v) (hv : T.val v = none) (p : Prim) :
    ¬ Holds T (Eff.var v) p := by
  intro h
  cases h with
  | here h => simp [Eff.var, Prims.has_none] at h
  | step hm hx _ =>
    simp only [Eff.var, List.mem_singleton] at hm
    subst hm
    rw [hr, hv] at hx; cases hx

theorem prims_union_none {a b : Eff} (ha : a.prims = Prims.none) (hb : b.prims = Prims.none) :
    (a.union b).prims = Prims.none := by simp [Eff.union, ha, hb, Prims.union, Prims.none]

/-- Flattening of variables without value. -/
theorem flat_leaves {T : Table} {vis : List Nat} {rec : List Nat → Cache → Eff → Eff × Cache} : ∀ (vs : List Nat)
    {s : Eff × Cache}, (∀ v ∈ vs, T.rep v = v ∧ T.val v = none ∧ v ∉ vis) → s.1.prims = Prims.none → CacheFree T s.2 →
    (vs.foldl (flatVar true T vis rec) s).1.prims = Prims.none ∧ CacheFree T (vs.foldl (flatVar true T vis rec) s).2 ∧
      ∀ q, q ∈ (vs.foldl (flatVar true T vis rec) s).1.vars ↔ q ∈ s.1.vars ∨ q ∈ vs := by
  intro vs
  induction vs with
  | nil => intro s _ h1 h2; exact ⟨h1, h2, by simp⟩
  | cons v vs ih =>
    intro s hvs h1 h2
    obtain ⟨hr, hv, hnv⟩ := hvs v List.mem_cons_self
    have step : (flatVar true T vis rec s v).1.prims = Prims.none ∧ CacheFree T (flatVar true T vis rec s v).2 ∧
        ∀ q, q ∈ (flatVar true T vis rec s v).1.vars ↔ q ∈ s.1.vars ∨ q = v := by
      unfold flatVar
      simp only [hr]
      split
      · rename_i x hx
        obtain ⟨a, b, d⟩ := h2 v x (lookup_mem hx)
        refine ⟨prims_union_none h1 a, h2, fun q => ?_⟩
        rw [Eff.mem_union, d, free_leaf hr hv]
      · rw [if_neg hnv, hv]
        refine ⟨prims_union_none h1 rfl, fun r x hx => ?_, fun q => ?_⟩
        · rcases List.mem_cons.mp hx with hx | hx
          · cases hx
            exact ⟨rfl, holds_leaf hr hv, fun q => by rw [free_leaf hr hv]; simp [Eff.var]⟩
          · exact h2 r x hx
        · rw [Eff.mem_union]; simp [Eff.var]
    obtain ⟨a, b, d⟩ := step
    obtain ⟨a', b', d'⟩ := ih (fun w hw => hvs w (List.mem_cons_of_mem _ hw)) a b
    refine ⟨a', b', fun q => ?_⟩
    rw [List.foldl_cons, d', d]
    simp only [List.mem_cons, or_assoc]

/-- A variable which stands for variables without value only. -/
def Leafy (T : Table) (p : Nat) : Prop :=
  T.rep p = p ∧ ∀ x, T.val p = some x → x.prims = Prims.none ∧ x.vars ≠ [] ∧
    ∀ v ∈ x.vars, T.rep v = v ∧ T.val v = none ∧ v ≠ p

theorem leafy_some {T : Table} {p : Nat} (h : Leafy T p) {x : Eff} (hx : T.val p = some x) :
    (∀ q, ¬ Holds T (Eff.var p) q) ∧ ∀ v, Free T (Eff.var p) v ↔ v ∈ x.vars := by
  obtain ⟨hr, h⟩ := h
  obtain ⟨h1, _, h2⟩ := h x hx
  constructor
  · intro q hq
    cases hq with
    | here h => simp [Eff.var, Prims.has_none] at h
    | step hm hy hq =>
      simp only [Eff.var, List.mem_singleton] at hm
      subst hm
      rw [hr, hx] at hy
      cases hy
      cases hq with
      | here h => rw [h1, Prims.has_none] at h; cases h
      | step hm hy _ =>
        obtain ⟨a, b, _⟩ := h2 _ hm
        rw [a, b] at hy; cases hy
  · intro v
    constructor
    · intro hv
      cases hv with
      | here hm hn =>
        simp only [Eff.var, List.mem_singleton] at hm
        subst hm
        rw [hr, hx] at hn; cases hn
      | step hm hy hv =>
        simp only [Eff.var, List.mem_singleton] at hm
        subst hm
        rw [hr, hx] at hy
        cases hy
        cases hv with
        | here hm hn => rw [(h2 _ hm).1]; exact hm
        | step hm hy _ =>
          obtain ⟨a, b, _⟩ := h2 _ hm
          rw [a, b] at hy; cases hy
    · intro hv
      obtain ⟨a, b, _⟩ := h2 v hv
      refine .step (v := p) (by simp [Eff.var]) (by rw [hr]; exact hx) ?_
      have := @Free.here T x v hv (by rw [a]; exact b)
      rwa [a] at this

/-- What the free variables of a leafy variable are like. -/
theorem leafy_free {T : Table} {p : Nat} (h : Leafy T p) :
    (∀ q, ¬ Holds T (Eff.var p) q) ∧ (∃ v, Free T (Eff.var p) v) ∧
      ∀ v, Free T (Eff.var p) v → T.rep v = v ∧ T.val v = none := by
  cases hv : T.val p with
  | none =>
    refine ⟨holds_leaf h.1 hv, ⟨p, (free_leaf h.1 hv p).mpr rfl⟩, fun v hf => ?_⟩
    have := (free_leaf h.1 hv v).mp hf
    subst this; exact ⟨h.1, hv⟩
  | some x =>
    obtain ⟨a, b⟩ := leafy_some h hv
    obtain ⟨_, ne, k⟩ := h.2 x hv
    obtain ⟨v, hv'⟩ := List.exists_mem_of_ne_nil _ ne
    refine ⟨a, ⟨v, (b v).mpr hv'⟩, fun w hw => ?_⟩
    obtain ⟨c, d, _⟩ := k w ((b w).mp hw)
    exact ⟨c, d⟩

theorem substIn_leafy {T : Table} {p : Nat} (hp : p < T.next) (h : Leafy T p) {c : Cache} (hc : CacheFree T c) :
    (substIn T c (Eff.var p)).1.prims = Prims.none ∧ CacheFree T (substIn T c (Eff.var p)).2 ∧
      ∀ v, v ∈ (substIn T c (Eff.var p)).1.vars ↔ Free T (Eff.var p) v := by
  have e : substIn T c (Eff.var p) = flatVar true T [] (flat true T T.next) (Eff.ground Prims.none, c) p := rfl
  rw [e]
  obtain ⟨hr, hval⟩ := h
  unfold flatVar
  simp only [hr]
  split
  · rename_i x hx
    obtain ⟨a, b, d⟩ := hc p x (lookup_mem hx)
    refine ⟨prims_union_none rfl a, hc, fun v => ?_⟩
    rw [Eff.mem_union, d]; simp [Eff.ground]
  · simp only [List.not_mem_nil, if_false]
    cases hv : T.val p with
    | none =>
      refine ⟨prims_union_none rfl rfl, fun r x hx => ?_, fun v => ?_⟩
      · rcases List.mem_cons.mp hx with hx | hx
        · cases hx
          exact ⟨rfl, holds_leaf hr hv, fun q => by rw [free_leaf hr hv]; simp [Eff.var]⟩
        · exact hc r x hx
      · rw [Eff.mem_union, free_leaf hr hv]; simp [Eff.ground, Eff.var]
    | some y =>
      obtain ⟨hy, hne, hyl⟩ := hval y hv
      obtain ⟨nh, fr⟩ := leafy_some ⟨hr, hval⟩ hv
      have hflat : flat true T T.next [p] c y =
          y.vars.foldl (flatVar true T [p] (flat true T (T.next - 1))) (Eff.ground y.prims, c) := by
        cases hn : T.next with
        | zero => omega
        | succ m => rfl
      obtain ⟨a, b, d⟩ := flat_leaves (T := T) (vis := [p]) (rec := flat true T (T.next - 1)) y.vars
        (s := (Eff.ground y.prims, c)) (fun v hv' => by
          obtain ⟨k1, k2, k3⟩ := hyl v hv'
          exact ⟨k1, k2, by simpa using k3⟩) hy hc
      simp only
      rw [hflat]
      generalize y.vars.foldl (flatVar true T [p] (flat true T (T.next - 1))) (Eff.ground y.prims, c) = X at *
      have hxv : ∀ v, v ∈ X.1.vars ↔ Free T (Eff.var p) v := fun v => by rw [fr, d]; simp [Eff.ground]
      have only : (if (true && !X.1.onlyVars) = true then X.1.union (Eff.var p) else X.1) = X.1 := by
        simp [Eff.onlyVars, a]
      rw [only]
      refine ⟨prims_union_none rfl a, fun r x hx => ?_, fun v => ?_⟩
      · rcases List.mem_cons.mp hx with hx | hx
        · cases hx; exact ⟨a, nh, hxv⟩
        · exact b r x hx
      · rw [Eff.mem_union, hxv]; simp [Eff.ground]

theorem substParams_leafy {T : Table} : ∀ (ps : List Nat) {c : Cache}, (∀ p ∈ ps, p < T.next ∧ Leafy T p) →
    CacheFree T c → CacheFree T (substParams T c (ps.map Eff.var)).2 ∧
      List.Forall₂ (fun p (x : Eff) => x.prims = Prims.none ∧ ∀ v, v ∈ x.vars ↔ Free T (Eff.var p) v) ps
        (substParams T c (ps.map Eff.var)).1 := by
  intro ps
  induction ps with
  | nil => intro c _ hc; exact ⟨hc, .nil⟩
  | cons p ps ih =>
    intro c hp hc
    obtain ⟨a, b⟩ := hp p List.mem_cons_self
    obtain ⟨h1, h2, h3⟩ := substIn_leafy a b hc
    obtain ⟨k1, k2⟩ := ih (fun q hq => hp q (List.mem_cons_of_mem _ hq)) h2
    exact ⟨k1, .cons ⟨h1, h3⟩ k2⟩

/-! ## Merging the variables of each parameter -/

theorem unionVars_same (t : Table) : ∀ (vs : List Nat), ∀ v ∈ vs, ∀ w ∈ vs, (unionVars t vs).rep v = (unionVars t vs).rep w := by
  intro vs
  cases vs with
  | nil => intro v hv; cases hv
  | cons x vs =>
    have key : ∀ (ws : List Nat) (t : Table), ∀ w ∈ ws,
        (ws.foldl (fun t w => t.union x w) t).rep x = (ws.foldl (fun t w => t.union x w) t).rep w := by
      intro ws
      induction ws with
      | nil => intro t w hw; cases hw
      | cons y ws ih =>
        intro t w hw
        rw [List.foldl_cons]
        rcases List.mem_cons.mp hw with rfl | hw
        · have g : (t.union x w).Grows (ws.foldl (fun t w => t.union x w) (t.union x w)) := by
            have := unionVars_grows (t.union x w) (x :: ws)
            exact this
          exact g.same _ _ (union_same t x w)
        · exact ih _ w hw
    have all : ∀ v ∈ x :: vs, (unionVars t (x :: vs)).rep x = (unionVars t (x :: vs)).rep v := by
      intro v hv
      rcases List.mem_cons.mp hv with rfl | hv
      · rfl
      · exact key vs t v hv
    intro v hv w hw
    rw [← all v hv, ← all w hw]

theorem unifyArgs_same : ∀ (ps : List Eff) (t : Table), ∀ e ∈ ps, ∀ v ∈ e.vars, ∀ w ∈ e.vars,
    (unifyArgs t ps).rep v = (unifyArgs t ps).rep w := by
  intro ps
  induction ps with
  | nil => intro t e he; cases he
  | cons x ps ih =>
    intro t e he v hv w hw
    have g : (unionVars t x.vars).Grows (unifyArgs (unionVars t x.vars) ps) := unifyArgs_grows _ ps
    rcases List.mem_cons.mp he with rfl | he
    · exact g.same _ _ (unionVars_same t e.vars v hv w hw)
    · exact ih (unionVars t x.vars) e he v hv w hw

/-- Variables with the same representative have the same label. -/
def Labels (lab : Nat → Nat) (t : Table) : Prop := ∀ a b, t.rep a = t.rep b → lab a = lab b

theorem Labels.union {lab : Nat → Nat} {t : Table} (h : Labels lab t) {a b : Nat} (hab : lab a = lab b) :
    Labels lab (t.union a b) := by
  unfold Table.union
  split
  · exact h
  · intro x y hxy
    simp only at hxy
    split at hxy <;> split at hxy <;> rename_i h1 h2
    · rw [h x a h1, h y a h2]
    · rw [h x a h1, hab]; exact h b y hxy
    · rw [h y a h2, hab]; exact h x b hxy
    · exact h x y hxy

theorem Labels.unionVars {lab : Nat → Nat} {t : Table} (h : Labels lab t) {vs : List Nat} {j : Nat}
    (hj : ∀ v ∈ vs, lab v = j) : Labels lab (unionVars t vs) := by
  cases vs with
  | nil => exact h
  | cons x vs =>
    have hx := hj x List.mem_cons_self
    have key : ∀ (ws : List Nat) (t : Table), Labels lab t → (∀ v ∈ ws, lab v = j) →
        Labels lab (ws.foldl (fun t w => t.union x w) t) := by
      intro ws
      induction ws with
      | nil => intro t h _; exact h
      | cons y ws ih =>
        intro t h hw
        exact ih _ (h.union (hx.trans (hw y List.mem_cons_self).symm)) (fun v hv => hw v (List.mem_cons_of_mem _ hv))
    exact key vs t h (fun v hv => hj v (List.mem_cons_of_mem _ hv))

theorem Labels.unifyArgs {lab : Nat → Nat} : ∀ (ps : List Eff) {t : Table}, Labels lab t →
    (∀ e ∈ ps, ∃ j, ∀ v ∈ e.vars, lab v = j) → Labels lab (unifyArgs t ps) := by
  intro ps
  induction ps with
  | nil => intro t h _; exact h
  | cons x ps ih =>
    intro t h hp
    obtain ⟨j, hj⟩ := hp x List.mem_cons_self
    exact ih (h.unionVars hj) (fun e he => hp e (List.mem_cons_of_mem _ he))

/-- Canonical form of variables with one representative. -/
theorem canon_one {t : Table} {e : Eff} {r : Nat} (hp : e.prims = Prims.none) (hne : e.vars ≠ [])
    (h : ∀ v ∈ e.vars, t.rep v = r) : e.canon t = Eff.var r := by
  have key : ∀ (vs : List Nat), (∀ v ∈ vs, t.rep v = r) →
      vs.foldl (fun a v => a.union (Eff.var (t.rep v))) (Eff.var r) = Eff.var r := by
    intro vs
    induction vs with
    | nil => intro _; rfl
    | cons v vs ih =>
      intro hv
      rw [List.foldl_cons, hv v List.mem_cons_self]
      have : (Eff.var r).union (Eff.var r) = Eff.var r := by
        simp [Eff.union, Eff.var, insVar, Prims.union, Prims.none]
      rw [this]
      exact ih (fun w hw => hv w (List.mem_cons_of_mem _ hw))
  unfold Eff.canon
  cases hvs : e.vars with
  | nil => exact absurd hvs hne
  | cons v vs =>
    rw [hvs] at h
    rw [List.foldl_cons, hp, h v List.mem_cons_self]
    exact key vs (fun w hw => h w (List.mem_cons_of_mem _ hw))

/-! ## The group of one direct function -/

theorem declParams_none : ∀ (m : Nat) (t : Table),
    (declParams t (List.replicate m none)).1 = (List.range' t.next m).map Eff.var ∧
    (declParams t (List.replicate m none)).2.next = t.next + m ∧
    (declParams t (List.replicate m none)).2.rep = t.rep ∧
    (∀ k, t.val k = none → (declParams t (List.replicate m none)).2.val k = none) := by
  intro m
  induction m with
  | zero => intro t; exact ⟨rfl, rfl, rfl, fun _ h => h⟩
  | succ m ih =>
    intro t
    obtain ⟨a, b, c, d⟩ := ih (t.newKey none)
    have hn : (t.newKey none).next = t.next + 1 := rfl
    simp only [List.replicate_succ, declParams]
    refine ⟨?_, by rw [b, hn]; omega, c, fun k hk => d k ?_⟩
    · rw [a, hn, List.range'_succ, List.map_cons]
    · simp only [Table.newKey]
      split
      · rfl
      · exact hk

theorem callback_group {done : List Scheme} (hd : DoneOK done) (hs : ∀ s ∈ done, Simple s) {d : Decl} {ss : List Scheme}
    (hpar : ∀ p ∈ d.params, p = none) (hdir : directStmts done.length d.body = true)
    (href : refersStmts done.length d.body = false)
    (h : inferGroup done [d] = some ss) : GroupOK done [d] ss ∧ ∀ s ∈ ss, Simple s := by
  obtain ⟨m, hm⟩ : ∃ m, d.params = List.replicate m none := ⟨_, List.eq_replicate_iff.mpr ⟨rfl, hpar⟩⟩
  -- the state before the body
  obtain ⟨w0, _, _, _⟩ := declGroup_spec [d] Table.wf_empty
  unfold inferGroup at h
  simp only [declGroup] at h w0
  obtain ⟨p1, p2, p3, p4⟩ := declParams_none m Table.empty
  rw [← hm] at p1 p2 p3 p4
  generalize hP : declParams Table.empty d.params = D at *
  have hnext : D.2.next = m := by rw [p2]; simp [Table.empty]
  have hps : D.1 = (List.range m).map Eff.var := by rw [p1]; simp [Table.empty, List.range_eq_range']
  rw [hnext] at h
  have inv0 : BodyInv m ⟨D.2.newKey none, []⟩ [] := by
    refine ⟨⟨w0, fun _ hc => by cases hc⟩, fun k => ?_, ?_, fun k _ => ?_, rfl, fun _ hd => (by cases hd), List.nodup_nil⟩
    · simp only [Table.newKey, p3]; rfl
    · simp [Table.newKey, hnext]
    · simp only [Table.newKey]
      split
      · rfl
      · exact p4 k rfl
  split at h
  · cases h
  rename_i rs g hg
  split at h
  · cases h
  rename_i T hT
  simp only [Option.some.injEq] at h
  subst h
  simp only [inferDecls] at hg
  split at hg
  · cases hg
  rename_i r g1 hr
  simp only [Option.some.injEq, Prod.mk.injEq] at hg
  obtain ⟨rfl, rfl⟩ := hg
  -- the body
  have hr0 := hr
  unfold inferDecl at hr
  split at hr
  · cases hr
  rename_i es g2 hes
  obtain ⟨⟨ks, inv⟩, _, hb⟩ := direct_stmts (n := m) (Γ := ⟨done, [⟨D.1, Eff.var m⟩], D.1⟩) hd hs hps d.body hdir href inv0 hes
  obtain ⟨inv', eb, ev, _⟩ := makeDep_direct inv hb
  simp only [href, Bool.false_eq_true, if_false] at hr
  have ready := inv'.ready eb ev
  have wf0 := inv0.wf
  have hΓ : (⟨done, [⟨D.1, Eff.var m⟩], D.1⟩ : Scope).WF (D.2.newKey none).next := by
    have below : ∀ e ∈ D.1, e.Below (D.2.newKey none).next := by
      intro e he
      rw [hps] at he
      obtain ⟨p, hp, rfl⟩ := List.mem_map.mp he
      have := List.mem_range.mp hp
      exact Eff.below_var (by simp only [Table.newKey, hnext]; omega)
    refine ⟨hd, fun s hs => ?_, below⟩
    simp only [List.mem_singleton] at hs
    subst hs
    exact ⟨Eff.below_var (by simp [Table.newKey, hnext]), below⟩
  have spec := fun S hS => inferDecl_spec (S := S) (s := ⟨D.1, Eff.var m⟩) hS wf0 hΓ (k := m) rfl
    (by simp [Table.newKey, hnext]) hr0
  obtain ⟨ext1, par1, bel1, _⟩ := spec done (fun _ _ h => h)
  simp only [Option.some.injEq, Prod.mk.injEq] at hr
  have hgt : g1.table = (unifyEffects (makeDep g2.table es).2 (makeDep g2.table es).1 (Eff.var m)).2 := by
    rw [← hr.2]
  have hgc : g1.cons = ks.map (fun d => (d.1, Eff.var d.2)) := by rw [← hr.2]; exact inv'.cons
  rw [← hgt] at ready
  clear hr
  obtain ⟨T', hT', sol⟩ := ready.solve
  rw [hgc, hT'] at hT
  cases hT
  obtain ⟨ext, sat⟩ := solve_spec ready.wf (by rw [← hgc]; exact ext1.wf.cons) hT'
  obtain ⟨rpar, reff⟩ := r
  simp only at par1 bel1
  subst par1
  rw [hps]
  -- parameters
  have leafy : ∀ p ∈ List.range m, p < T.next ∧ Leafy T p := by
    intro p hp
    have hpm := List.mem_range.mp hp
    refine ⟨by rw [ext.next]; have := ready.low; omega, by rw [sol.rep]; exact (ready.own p hpm).1, fun x hx => ?_⟩
    obtain ⟨a, b, c⟩ := (sol.own p hpm).1 x hx
    refine ⟨a, b, fun v hv => ?_⟩
    obtain ⟨d', hd', e1, e2⟩ := (c v).mp hv
    subst e2
    refine ⟨by rw [sol.rep]; exact ready.wf.flat _, sol.sink d' hd' ⟨p, e1⟩, ?_⟩
    have := (ready.shape d' hd').2.2.1
    omega
  obtain ⟨cfree, pars⟩ := substParams_leafy (T := T) (List.range m) (c := []) leafy (fun _ _ h => by cases h)
  have hclose : closeAll T [⟨(List.range m).map Eff.var, reff⟩] =
      [(closeScheme T ⟨(List.range m).map Eff.var, reff⟩).1] := rfl
  rw [hclose]
  simp only [closeScheme, substScheme]
  generalize substParams T [] ((List.range m).map Eff.var) = X at *
  have hfull := flat_full true ext.wf cfree.full reff (by rw [ext.next]; exact bel1)
  have hE : (substIn T X.2 reff).1 = (flat true T (T.next + 1) [] X.2 reff).1 := rfl
  rw [← hE] at hfull
  generalize (substIn T X.2 reff).1 = E at *
  have hsame := unifyArgs_same X.1 T
  have hgrow := unifyArgs_grows T X.1
  obtain ⟨xl, xget⟩ := List.forall₂_iff_get.mp pars
  have uniq : ∀ p q v, p < m → q < m → Free T (Eff.var p) v → Free T (Eff.var q) v → p = q := by
    have char : ∀ p v, p < m → Free T (Eff.var p) v → (v = p ∧ T.val p = none) ∨
        ∃ d' ∈ ks, d'.1 = Eff.var p ∧ v = g1.table.rep d'.2 := by
      intro p v hp hf
      have lf := (leafy p (List.mem_range.mpr hp)).2
      cases hv : T.val p with
      | none => exact .inl ⟨(free_leaf lf.1 hv v).mp hf, rfl⟩
      | some x =>
        exact .inr (((sol.own p hp).1 x hv).2.2 v |>.mp ((leafy_some lf hv).2 v |>.mp hf))
    intro p q v hp hq h1 h2
    rcases char p v hp h1 with ⟨rfl, _⟩ | ⟨d1, m1, e1, f1⟩
    · rcases char q v hq h2 with ⟨rfl, _⟩ | ⟨d2, m2, e2, f2⟩
      · rfl
      · have := (ready.shape d2 m2).2.2.1
        omega
    · rcases char q v hq h2 with ⟨rfl, _⟩ | ⟨d2, m2, e2, f2⟩
      · have := (ready.shape d1 m1).2.2.1
        omega
      · have : d1 = d2 := List.inj_on_of_nodup_map ready.nodup m1 m2 (by rw [← f1, ← f2])
        subst this
        rw [e1] at e2
        simpa [Eff.var] using e2
  -- the representative of each parameter
  have xvars : ∀ (i : Nat) (hi : i < X.1.length), X.1[i].prims = Prims.none ∧
      (∀ v, v ∈ X.1[i].vars ↔ Free T (Eff.var i) v) ∧ i < m := by
    intro i hi
    have hi' : i < (List.range m).length := by omega
    have := xget i hi' hi
    simp only [List.get_eq_getElem, List.getElem_range] at this
    exact ⟨this.1, this.2, by simpa using hi'⟩
  have xne : ∀ (i : Nat) (hi : i < X.1.length), X.1[i].vars ≠ [] := by
    intro i hi e
    obtain ⟨_, b, c⟩ := xvars i hi
    obtain ⟨_, ⟨v, hv⟩, _⟩ := leafy_free (leafy i (List.mem_range.mpr c)).2
    have := (b v).mpr hv
    rw [e] at this; cases this
  have xlen : X.1.length = m := by rw [← xl]; simp
  let T2 := unifyArgs T X.1
  have canonP : ∀ (i : Nat) (hi : i < X.1.length) (v : Nat), Free T (Eff.var i) v → X.1[i].canon T2 = Eff.var (T2.rep v) := by
    intro i hi v hv
    obtain ⟨a, b, _⟩ := xvars i hi
    refine canon_one a (xne i hi) (fun w hw => ?_)
    exact hsame X.1[i] (List.getElem_mem _) w hw v ((b v).mpr hv)
  let params := X.1.map (Eff.canon T2)
  have simple : Simple ⟨params, defaultEff params (E.canon T2)⟩ := by
    refine ⟨X.1.map (fun x => T2.rep (x.vars.headD 0)), ?_, ?_⟩
    · simp only [params, List.map_map]
      refine List.map_congr_left (fun x hx => ?_)
      obtain ⟨i, hi, rfl⟩ := List.mem_iff_getElem.mp hx
      simp only [Function.comp_apply]
      obtain ⟨_, b, _⟩ := xvars i hi
      refine canonP i hi _ ((b _).mp ?_)
      have := xne i hi
      cases hv : X.1[i].vars with
      | nil => exact absurd hv this
      | cons v vs => simp
    · classical
      let lab : Nat → Nat := fun k =>
        if h : ∃ p, p < m ∧ Free T (Eff.var p) (T.rep k) then h.choose else m + T.rep k
      have labT : Labels lab T := by
        intro a b hab
        simp only [lab, hab]
      have labOf : ∀ p v, p < m → Free T (Eff.var p) v → lab v = p := by
        intro p v hp hf
        have hrv := (leafy_free (leafy p (List.mem_range.mpr hp)).2).2.2 v hf
        have hex : ∃ q, q < m ∧ Free T (Eff.var q) (T.rep v) := ⟨p, hp, by rw [hrv.1]; exact hf⟩
        simp only [lab, dif_pos hex]
        obtain ⟨c1, c2⟩ := hex.choose_spec
        exact uniq _ _ (T.rep v) c1 hp c2 (by rw [hrv.1]; exact hf)
      have labT2 : Labels lab T2 := labT.unifyArgs X.1 (fun e he => by
        obtain ⟨i, hi, rfl⟩ := List.mem_iff_getElem.mp he
        obtain ⟨_, b, c⟩ := xvars i hi
        exact ⟨i, fun v hv => labOf i v c ((b v).mp hv)⟩)
      have headFree : ∀ (i : Nat) (hi : i < X.1.length), Free T (Eff.var i) (X.1[i].vars.headD 0) := by
        intro i hi
        obtain ⟨_, b, _⟩ := xvars i hi
        refine (b _).mp ?_
        have := xne i hi
        cases hv : X.1[i].vars with
        | nil => exact absurd hv this
        | cons v vs => simp
      rw [List.nodup_iff_injective_get]
      rintro ⟨i, hi⟩ ⟨j, hj⟩ hij
      simp only [List.get_eq_getElem, List.getElem_map] at hij
      have hi' : i < X.1.length := by simpa using hi
      have hj' : j < X.1.length := by simpa using hj
      have := labT2 _ _ hij
      rw [labOf i _ (xvars i hi').2.2 (headFree i hi'), labOf j _ (xvars j hj').2.2 (headFree j hj')] at this
      simp only [Fin.mk.injEq]
      exact this
  refine ⟨⟨rfl, fun s hs v hv => ?_, fun S hS i d' s hdi hsi θ => ?_⟩, fun s hs => ?_⟩
  · simp only [List.mem_singleton] at hs
    subst hs
    simp only [defaultEff, List.mem_filter, decide_eq_true_eq] at hv
    exact hv.2
  · cases i with
    | succ i => simp at hdi
    | zero =>
    simp only [List.getElem?_cons_zero, Option.some.injEq] at hdi hsi
    subst hdi hsi
    obtain ⟨_, _, _, k⟩ := spec S (fun j s' hs' => hS j s' (by
      rw [List.getElem?_append_left (List.getElem?_eq_some_iff.mp hs').1]; exact hs'))
    let ρ : Nat → Prim → Prop := fun r p => T2.rep r ∈ inputVars params ∧ θ (T2.rep r) p
    let φ := tableVal T ρ
    have hφ : Solves φ g1 := by
      refine ⟨(tableVal_solution T ρ).earlier ext.grows, fun c hc p hp => ?_⟩
      rw [hgc] at hc
      have hc0 := hc
      obtain ⟨dd, hdd, rfl⟩ := List.mem_map.mp hc
      obtain ⟨sh, _, _, _⟩ := ready.shape dd hdd
      simp only at hp ⊢
      rcases sh with ⟨q, hq, e⟩ | ⟨F, e⟩
      · rw [e] at hp
        have lf := (leafy q (List.mem_range.mpr hq)).2
        rcases den_tableVal.mp hp with hp | ⟨v, hv, hp⟩
        · exact absurd hp ((leafy_free lf).1 p)
        · have hsink : T.val (T.rep dd.2) = none := by rw [sol.rep]; exact sol.sink dd hdd ⟨q, e⟩
          refine den_tableVal.mpr (.inr ⟨T.rep dd.2, .here (by simp [Eff.var]) hsink, ?_⟩)
          have hfq : Free T (Eff.var q) (T.rep dd.2) := by
            cases hval : T.val q with
            | none => exact absurd e ((sol.own q hq).2 hval dd hdd)
            | some x =>
              rw [(leafy_some lf hval).2, ((sol.own q hq).1 x hval).2.2]
              exact ⟨dd, hdd, e, by rw [sol.rep]⟩
          have hqx : q < X.1.length := by omega
          have same := hsame X.1[q] (List.getElem_mem _) v ((xvars q hqx).2.1 v |>.mpr hv) _
            ((xvars q hqx).2.1 _ |>.mpr hfq)
          show T2.rep (T.rep dd.2) ∈ inputVars params ∧ θ (T2.rep (T.rep dd.2)) p
          have : T2.rep (T.rep dd.2) = T2.rep v := same.symm
          rw [this]
          exact hp
      · rw [e] at hp
        have := sat F (Eff.var dd.2) (by rw [← e]; exact hc0) p (den_ground.mp hp)
        exact den_tableVal.mpr (.inl this)
    have ok := (k φ hφ).2 (fun hrf => by rw [href] at hrf; cases hrf)
    have env : List.Forall₂ (fun F G : Prim → Prop => ∀ p, G p → F p) (D.1.map (den φ)) (params.map (den θ)) := by
      rw [List.forall₂_iff_get]
      refine ⟨by simp [params, xlen, hps], fun i h1 h2 p hp => ?_⟩
      have hix : i < X.1.length := by simpa [params] using h2
      simp only [List.get_eq_getElem, List.getElem_map, params, hps, List.getElem_range] at hp ⊢
      obtain ⟨_, _, him⟩ := xvars i hix
      obtain ⟨_, ⟨v, hv⟩, _⟩ := leafy_free (leafy i (List.mem_range.mpr him)).2
      rw [canonP i hix v hv, den_var] at hp
      refine den_tableVal.mpr (.inr ⟨v, hv, ?_, hp⟩)
      refine (mem_inputVars _ _).mpr ⟨X.1[i].canon T2, List.mem_map.mpr ⟨_, List.getElem_mem _, rfl⟩, ?_⟩
      rw [canonP i hix v hv]; simp [Eff.var]
    refine StmtsOK.mono (fun _ _ h => h) d.body (fun p hp => ?_) (StmtsOK.env env d.body ok)
    rcases den_tableVal.mp hp with hp | ⟨v, hv, hin, hp⟩
    · exact .inl ((canon_prims T2 E p).mpr (hfull.1 p hp))
    · refine .inr ⟨T2.rep v, ?_, hp⟩
      simp only [defaultEff, List.mem_filter, decide_eq_true_eq]
      exact ⟨(canon_vars T2 E _).mpr ⟨v, hfull.2 v hv, rfl⟩, hin⟩
  · simp only [List.mem_singleton] at hs
    subst hs
    exact simple

end Ferlium.EffInfer
