import Verif.Proofs.EffectNullary

/-!
# Functions which call or forward their callbacks
-/

namespace Ferlium.EffInfer

/-- A type whose parameters have distinct effect variables. -/
def Simple (s : Scheme) : Prop := ∃ vs : List Nat, s.params = vs.map Eff.var ∧ vs.Nodup

/-! ## Inclusions of a direct body -/

/-- The state while the body of a function with `n` callbacks is inferred: its callbacks are the
variables below `n`, its effects are `n`, and the inclusions are those of `ks`. -/
structure BodyInv (n : Nat) (g : Gen) (ks : List (Eff × Nat)) : Prop where
  wf : g.WF
  rep : ∀ k, g.table.rep k = k
  low : n < g.table.next
  blank : ∀ k ≤ n, g.table.val k = none
  cons : g.cons = ks.map (fun d => (d.1, Eff.var d.2))
  shape : ∀ d ∈ ks, ((∃ p < n, d.1 = Eff.var p) ∨ ∃ F, d.1 = Eff.ground F) ∧ n < d.2 ∧ d.2 < g.table.next ∧
    g.table.val d.2 = none
  nodup : (ks.map (·.2)).Nodup

theorem BodyInv.newKey {n : Nat} {g : Gen} {ks : List (Eff × Nat)} (h : BodyInv n g ks) {v : Option Eff}
    (hv : ∀ e, v = some e → e.Below g.table.next) : BodyInv n ⟨g.table.newKey v, g.cons⟩ ks := by
  refine ⟨⟨h.wf.table.newKey hv, fun c hc => ?_⟩, h.rep, Nat.lt_succ_of_lt h.low, fun k hk => ?_, h.cons, fun d hd => ?_, h.nodup⟩
  · exact ⟨(h.wf.cons c hc).1.mono (Nat.le_succ _), (h.wf.cons c hc).2.mono (Nat.le_succ _)⟩
  · simp only [Table.newKey]
    have := h.low
    rw [if_neg (by omega)]; exact h.blank k hk
  · obtain ⟨a, b, c, e⟩ := h.shape d hd
    refine ⟨a, b, Nat.lt_succ_of_lt c, ?_⟩
    simp only [Table.newKey]
    rw [if_neg (by omega)]; exact e

theorem BodyInv.include {n : Nat} {g : Gen} {ks : List (Eff × Nat)} (h : BodyInv n g ks) {l : Eff} {u : Nat}
    (hl : (∃ p < n, l = Eff.var p) ∨ ∃ F, l = Eff.ground F) (hu : n < u) (hu' : u < g.table.next)
    (hv : g.table.val u = none) (hnew : u ∉ ks.map (·.2)) :
    BodyInv n (g.include l (Eff.var u)) (ks ++ [(l, u)]) ∧ (g.include l (Eff.var u)).table = g.table := by
  have hne : l ≠ Eff.var u := by
    rcases hl with ⟨p, hp, rfl⟩ | ⟨F, rfl⟩
    · intro e
      have : p = u := by simpa [Eff.var] using e
      omega
    · intro e
      simp [Eff.ground, Eff.var] at e
  have hlb : l.Below g.table.next := by
    rcases hl with ⟨p, hp, rfl⟩ | ⟨F, rfl⟩
    · exact Eff.below_var (by have := h.low; omega)
    · exact Eff.below_ground _ _
  obtain ⟨e, ht⟩ := h.wf.include hlb (Eff.below_var hu')
  refine ⟨⟨e.wf, by rw [ht]; exact h.rep, by rw [ht]; exact h.low, by rw [ht]; exact h.blank, ?_, ?_, ?_⟩, ht⟩
  · unfold Gen.include
    rw [if_neg hne]
    simp [h.cons]
  · intro d hd
    rw [ht]
    rcases List.mem_append.mp hd with hd | hd
    · exact h.shape d hd
    · simp only [List.mem_singleton] at hd; subst hd; exact ⟨hl, hu, hu', hv⟩
  · rw [List.map_append, List.nodup_append]
    refine ⟨h.nodup, by simp, fun a ha b hb => ?_⟩
    simp only [List.map_cons, List.map_nil, List.mem_singleton] at hb
    subst hb
    intro e; subst e; exact hnew ha

theorem freshSubst_table (vs : List Nat) : ∀ {t : Table}, t.WF →
    (freshSubst t vs).2.rep = t.rep ∧ (freshSubst t vs).2.val = t.val := by
  induction vs with
  | nil => intro t _; exact ⟨rfl, rfl⟩
  | cons v vs ih =>
    intro t h
    obtain ⟨a, b⟩ := ih (h.newKey (v := none) (fun e he => by cases he))
    refine ⟨a, b.trans ?_⟩
    funext k
    simp only [Table.newKey]
    split
    · rename_i hk; subst hk; exact (h.out _ (le_refl _)).2.symm
    · rfl

theorem freshSubst_inj (vs : List Nat) : ∀ {t : Table}, t.WF → ∀ v ∈ vs, ∀ w ∈ vs, ∀ k,
    (freshSubst t vs).1.lookup v = some (Eff.var k) → (freshSubst t vs).1.lookup w = some (Eff.var k) → v = w := by
  induction vs with
  | nil => intro t _ v hv; cases hv
  | cons x vs ih =>
    intro t h v hv w hw k hkv hkw
    have wf := h.newKey (v := none) (fun e he => by cases he)
    have sp := (freshSubst_spec vs wf).2.2.2
    have hn : (t.newKey none).next = t.next + 1 := rfl
    have look : ∀ y ∈ x :: vs, (freshSubst t (x :: vs)).1.lookup y = some (Eff.var k) →
        (y = x ∧ k = t.next) ∨ (y ∈ vs ∧ (freshSubst (t.newKey none) vs).1.lookup y = some (Eff.var k) ∧ t.next < k) := by
      intro y hy hk
      simp only [freshSubst, List.lookup_cons] at hk
      by_cases hyx : y = x
      · subst hyx
        simp only [beq_self_eq_true, Option.some.injEq] at hk
        refine .inl ⟨rfl, ?_⟩
        have : t.next = k := by simpa [Eff.var] using hk
        exact this.symm
      · have : (y == x) = false := by simpa using hyx
        simp only [this] at hk
        have hy' := (List.mem_cons.mp hy).resolve_left hyx
        obtain ⟨k', hk', h1, _⟩ := sp y hy'
        rw [hk'] at hk
        have e : k' = k := by simpa [Eff.var] using hk
        subst e
        exact .inr ⟨hy', hk', by omega⟩
    rcases look v hv hkv with ⟨rfl, e1⟩ | ⟨m1, l1, g1⟩
    · rcases look w hw hkw with ⟨rfl, _⟩ | ⟨_, _, g2⟩
      · rfl
      · omega
    · rcases look w hw hkw with ⟨_, e2⟩ | ⟨m2, l2, _⟩
      · omega
      · exact ih wf v m1 w m2 k l1 l2

theorem inst_var {σ : List (Nat × Eff)} {v k : Nat} (h : σ.lookup v = some (Eff.var k)) :
    (Eff.var v).inst σ = Eff.var k := by
  simp only [Eff.inst, Eff.var, List.foldl_cons, List.foldl_nil, h, Option.getD_some]
  rfl

/-- The use of an earlier function whose parameters have distinct variables. -/
theorem useFn_direct {Γ : Scope} (hd : DoneOK Γ.done) (hs : ∀ s ∈ Γ.done, Simple s) {f : Nat}
    (hf : f < Γ.done.length) {t t' : Table} (ht : t.WF) {s : Scheme} (h : useFn Γ f t = some (s, t')) :
    t'.WF ∧ t'.rep = t.rep ∧ t'.val = t.val ∧ t.next ≤ t'.next ∧
      (∃ us : List Nat, s.params = us.map Eff.var ∧ us.Nodup ∧ ∀ u ∈ us, t.next ≤ u ∧ u < t'.next) ∧
      s.eff.Below t'.next ∧ ∀ v ∈ s.eff.vars, t.next ≤ v := by
  unfold useFn at h
  have hs0 : Γ.done[f]? = some Γ.done[f] := by simp [hf]
  rw [hs0] at h
  simp only [Option.some.injEq, Prod.mk.injEq] at h
  obtain ⟨rfl, rfl⟩ := h
  have hmem := List.getElem_mem hf
  generalize Γ.done[f] = s0 at *
  obtain ⟨vs, hvs, hnd⟩ := hs s0 hmem
  obtain ⟨_, b, c, d⟩ := freshSubst_spec (inputVars s0.params) ht
  obtain ⟨r, v⟩ := freshSubst_table (inputVars s0.params) ht
  have inj := freshSubst_inj (inputVars s0.params) ht
  generalize freshSubst t (inputVars s0.params) = R at *
  have hin : ∀ v ∈ vs, v ∈ inputVars s0.params := by
    intro v hv
    exact (mem_inputVars _ _).mpr ⟨Eff.var v, by rw [hvs]; exact List.mem_map.mpr ⟨v, hv, rfl⟩, by simp [Eff.var]⟩
  have key : ∃ us : List Nat, List.Forall₂ (fun v k => R.1.lookup v = some (Eff.var k) ∧ t.next ≤ k ∧ k < R.2.next) vs us := by
    clear hvs hnd
    induction vs with
    | nil => exact ⟨[], .nil⟩
    | cons x vs ih =>
      obtain ⟨us, hus⟩ := ih (fun v hv => hin v (List.mem_cons_of_mem _ hv))
      obtain ⟨k, hk⟩ := d x (hin x List.mem_cons_self)
      exact ⟨k :: us, .cons hk hus⟩
  obtain ⟨us, hus⟩ := key
  refine ⟨c, r, v, b, ⟨us, ?_, ?_, ?_⟩, ?_, ?_⟩
  · rw [hvs, List.map_map]
    clear hvs hnd hin
    induction hus with
    | nil => rfl
    | cons h _ ih =>
      simp only [List.map_cons, Function.comp_apply, inst_var h.1]
      exact congrArg _ ih
  · clear hvs
    induction hus with
    | nil => exact List.nodup_nil
    | @cons x k vs us h hr ih =>
      obtain ⟨hx, hn⟩ := List.nodup_cons.mp hnd
      refine List.nodup_cons.mpr ⟨fun hk => ?_, ih hn (fun v hv => hin v (List.mem_cons_of_mem _ hv))⟩
      obtain ⟨hl, hget⟩ := List.forall₂_iff_get.mp hr
      obtain ⟨i, hi, rfl⟩ := List.mem_iff_getElem.mp hk
      have hg := (hget i (by omega) hi).1
      simp only [List.get_eq_getElem] at hg
      have hm : vs[i]'(by omega) ∈ vs := List.getElem_mem _
      have := inj x (hin x List.mem_cons_self) _ (hin _ (List.mem_cons_of_mem _ hm)) _ h.1 hg
      exact hx (this ▸ hm)
  · intro u hu
    obtain ⟨hl, hget⟩ := List.forall₂_iff_get.mp hus
    obtain ⟨i, hi, rfl⟩ := List.mem_iff_getElem.mp hu
    have := hget i (by omega) hi
    simpa using this.2
  · refine inst_below (fun w hw => ?_)
    obtain ⟨k, hk, _, hlt⟩ := d w (hd s0 hmem w hw)
    exact ⟨k, hk, hlt⟩
  · have loop : ∀ (ws : List Nat) (a : Eff), (∀ v ∈ a.vars, t.next ≤ v) → (∀ w ∈ ws, w ∈ inputVars s0.params) →
        ∀ v ∈ (ws.foldl (fun a v => a.union ((R.1.lookup v).getD (Eff.var v))) a).vars, t.next ≤ v := by
      intro ws
      induction ws with
      | nil => intro a ha _; exact ha
      | cons w ws ih =>
        intro a ha hw
        refine ih _ (fun v hv => ?_) (fun x hx => hw x (List.mem_cons_of_mem _ hx))
        obtain ⟨k, hk, hge, _⟩ := d w (hw w List.mem_cons_self)
        rcases (Eff.mem_union _ _ _).mp hv with hv | hv
        · exact ha v hv
        · rw [hk] at hv
          simp only [Option.getD_some, Eff.var, List.mem_singleton] at hv
          omega
    exact loop s0.eff.vars _ (fun v hv => by simp [Eff.ground] at hv) (hd s0 hmem)

theorem direct_args {n : Nat} {Γ : Scope} (hd : DoneOK Γ.done) (hp : Γ.params = (List.range n).map Eff.var) :
    ∀ (as : List Arg), directArgs Γ.done.length as = true → ∀ {us : List Nat} {g g' : Gen} {ks : List (Eff × Nat)},
      BodyInv n g ks → us.Nodup → (∀ u ∈ us, n < u ∧ u < g.table.next ∧ g.table.val u = none ∧ u ∉ ks.map (·.2)) →
      inferArgs Γ as (us.map Eff.var) g = some g' → g'.table = g.table ∧ ∃ ks', BodyInv n g' ks' := by
  intro as
  induction as with
  | nil =>
    intro _ us g g' ks hg _ _ h
    cases us with
    | nil => simp only [inferArgs, List.map_nil, Option.some.injEq] at h; subst h; exact ⟨rfl, ks, hg⟩
    | cons => simp only [inferArgs, List.map_cons] at h; cases h
  | cons a as ih =>
    intro ha us g g' ks hg hnd hus h
    simp only [directArgs, Bool.and_eq_true] at ha
    cases us with
    | nil => simp only [inferArgs, List.map_nil] at h; cases h
    | cons u us =>
      simp only [inferArgs, List.map_cons] at h
      split at h
      · cases h
      rename_i e g1 h1
      obtain ⟨rfl, k⟩ := inferDirectArg hd ha.1 h1
      have hl : (∃ p < n, e = Eff.var p) ∨ ∃ F, e = Eff.ground F := by
        rcases k with k | k
        · exact .inr k
        · rw [hp] at k
          obtain ⟨p, hpn, rfl⟩ := List.mem_map.mp k
          exact .inl ⟨p, List.mem_range.mp hpn, rfl⟩
      obtain ⟨u1, u2, u3, u4⟩ := hus u List.mem_cons_self
      obtain ⟨inv, ht⟩ := hg.include hl u1 u2 u3 u4
      obtain ⟨hun, hnd'⟩ := List.nodup_cons.mp hnd
      obtain ⟨t1, t2⟩ := ih ha.2 inv hnd' (fun w hw => by
        obtain ⟨w1, w2, w3, w4⟩ := hus w (List.mem_cons_of_mem _ hw)
        refine ⟨w1, by rw [ht]; exact w2, by rw [ht]; exact w3, ?_⟩
        rw [List.map_append, List.mem_append]
        rintro (h | h)
        · exact w4 h
        · simp only [List.map_cons, List.map_nil, List.mem_singleton] at h
          subst h; exact hun hw) h
      exact ⟨t1.trans ht, t2⟩

theorem makeDep_direct {n : Nat} {g : Gen} {ks : List (Eff × Nat)} (h : BodyInv n g ks) {es : List Eff}
    (hes : ∀ e ∈ es, e.Below g.table.next ∧ ∀ v ∈ e.vars, n < v) :
    BodyInv n ⟨(makeDep g.table es).2, g.cons⟩ ks ∧ (makeDep g.table es).1.Below (makeDep g.table es).2.next ∧
      (∀ v ∈ (makeDep g.table es).1.vars, n < v) ∧ g.table.next ≤ (makeDep g.table es).2.next := by
  have fold : ∀ (es : List Eff) (a : Eff), (∀ v ∈ a.vars, n < v) → (∀ e ∈ es, ∀ v ∈ e.vars, n < v) →
      ∀ v ∈ (es.foldl Eff.union a).vars, n < v := by
    intro es
    induction es with
    | nil => intro a ha _; exact ha
    | cons e es ih =>
      intro a ha he
      refine ih _ (fun v hv => ?_) (fun x hx => he x (List.mem_cons_of_mem _ hx))
      exact ((Eff.mem_union _ _ _).mp hv).elim (ha v) (he e List.mem_cons_self v)
  obtain ⟨_, b, _⟩ := makeDep_spec h.wf (es := es) (fun e he => (hes e he).1)
  refine ⟨?_, b, ?_⟩
  · match es with
    | [] => exact h
    | [e] => exact h
    | e :: y :: es =>
      simp only [makeDep]
      split
      · exact h
      · refine h.newKey (fun x hx => ?_)
        cases hx
        exact foldl_union_below (y :: es) e (hes e List.mem_cons_self).1 (fun x hx => (hes x (List.mem_cons_of_mem _ hx)).1)
  · match es with
    | [] => exact ⟨fun v hv => by simp [makeDep, Eff.empty] at hv, le_refl _⟩
    | [e] => exact ⟨(hes e List.mem_cons_self).2, le_refl _⟩
    | e :: y :: es =>
      have hf := fold (y :: es) e (hes e List.mem_cons_self).2 (fun x hx => (hes x (List.mem_cons_of_mem _ hx)).2)
      simp only [makeDep]
      split
      · exact ⟨hf, le_refl _⟩
      · refine ⟨fun v hv => ?_, Nat.le_succ _⟩
        simp only [Eff.var, List.mem_singleton] at hv
        subst hv; exact h.low

theorem direct_stmt {n : Nat} {Γ : Scope} (hd : DoneOK Γ.done) (hs : ∀ s ∈ Γ.done, Simple s)
    (hp : Γ.params = (List.range n).map Eff.var) {s : Stmt} (hdir : directStmt Γ.done.length s = true)
    (href : refersStmt Γ.done.length s = false) {g g' : Gen} {e : Eff} {ks : List (Eff × Nat)} (hg : BodyInv n g ks)
    (h : inferStmt Γ s g = some (e, g')) :
    (∃ ks', BodyInv n g' ks') ∧ g.table.next ≤ g'.table.next ∧ e.Below g'.table.next ∧ ∀ v ∈ e.vars, n < v := by
  cases s with
  | native x =>
    simp only [inferStmt, Option.some.injEq, Prod.mk.injEq] at h
    obtain ⟨rfl, rfl⟩ := h
    exact ⟨⟨ks, hg⟩, le_refl _, Eff.below_ground _ _, fun v hv => by simp [Eff.ground] at hv⟩
  | callParam i =>
    simp only [inferStmt] at h
    split at h
    · cases h
    rename_i q hq
    simp only [Option.some.injEq, Prod.mk.injEq] at h
    obtain ⟨rfl, rfl⟩ := h
    rw [hp] at hq
    obtain ⟨p, hpn, rfl⟩ := List.mem_map.mp (List.mem_of_getElem? hq)
    have inv := hg.newKey (v := none) (fun e he => by cases he)
    have hnn : (g.table.newKey none).next = g.table.next + 1 := rfl
    obtain ⟨inv', ht⟩ := inv.include (l := Eff.var p) (u := g.table.next) (.inl ⟨p, List.mem_range.mp hpn, rfl⟩) hg.low
      (by simp only [hnn]; omega) (by simp [Table.newKey]) (fun hm => by
        obtain ⟨d, hd, e⟩ := List.mem_map.mp hm
        have := (hg.shape d hd).2.2.1
        omega)
    refine ⟨⟨_, inv'⟩, ?_, ?_, ?_⟩
    · rw [ht]; exact Nat.le_succ _
    · rw [ht]; exact Eff.below_var (Nat.lt_succ_self _)
    · intro v hv
      simp only [Eff.var, List.mem_singleton] at hv
      subst hv; exact hg.low
  | callFn f args =>
    simp only [refersStmt, Bool.or_eq_false_iff, decide_eq_false_iff_not, not_le] at href
    simp only [directStmt, Bool.and_eq_true] at hdir
    simp only [inferStmt] at h
    split at h
    · cases h
    rename_i s t hu
    obtain ⟨w, r, v, hle, ⟨us, hus, hnd, hrange⟩, be, bv⟩ := useFn_direct hd hs href.1 hg.wf.table hu
    have inv : BodyInv n ⟨t, g.cons⟩ ks := by
      refine ⟨⟨w, fun c hc => ⟨(hg.wf.cons c hc).1.mono hle, (hg.wf.cons c hc).2.mono hle⟩⟩, ?_, ?_, ?_, hg.cons, ?_, hg.nodup⟩
      · intro k; simp only [r]; exact hg.rep k
      · exact lt_of_lt_of_le hg.low hle
      · intro k hk; simp only [v]; exact hg.blank k hk
      · intro d hd'
        obtain ⟨a, b, c, e⟩ := hg.shape d hd'
        exact ⟨a, b, lt_of_lt_of_le c hle, by simp only [v]; exact e⟩
    split at h
    · cases h
    rename_i g2 ha
    rw [hus] at ha
    obtain ⟨ht2, ks', inv2⟩ := direct_args hd hp args hdir.2 inv hnd (fun u hu => by
      obtain ⟨h1, h2⟩ := hrange u hu
      refine ⟨lt_of_lt_of_le hg.low h1, h2, ?_, fun hm => ?_⟩
      · simp only [v]; exact (hg.wf.table.out u h1).2
      · obtain ⟨d, hd', e⟩ := List.mem_map.mp hm
        have := (hg.shape d hd').2.2.1
        omega) ha
    simp only [Option.some.injEq, Prod.mk.injEq] at h
    obtain ⟨rfl, rfl⟩ := h
    obtain ⟨inv3, b3, v3, n3⟩ := makeDep_direct inv2 (es := [Eff.empty, s.eff]) (by
      intro x hx
      simp only [List.mem_cons, List.not_mem_nil, or_false] at hx
      rcases hx with rfl | rfl
      · exact ⟨Eff.below_ground _ _, fun v hv => by simp [Eff.empty] at hv⟩
      · rw [ht2]; exact ⟨be, fun v hv => lt_of_lt_of_le hg.low (bv v hv)⟩)
    refine ⟨⟨ks', inv3⟩, ?_, b3, v3⟩
    rw [ht2] at n3
    rw [ht2]
    exact le_trans hle n3

theorem direct_stmts {n : Nat} {Γ : Scope} (hd : DoneOK Γ.done) (hs : ∀ s ∈ Γ.done, Simple s)
    (hp : Γ.params = (List.range n).map Eff.var) : ∀ (ss : List Stmt), directStmts Γ.done.length ss = true →
    refersStmts Γ.done.length ss = false → ∀ {g g' : Gen} {es : List Eff} {ks : List (Eff × Nat)}, BodyInv n g ks →
    inferStmts Γ ss g = some (es, g') →
    (∃ ks', BodyInv n g' ks') ∧ g.table.next ≤ g'.table.next ∧ ∀ e ∈ es, e.Below g'.table.next ∧ ∀ v ∈ e.vars, n < v := by
  intro ss
  induction ss with
  | nil =>
    intro _ _ g g' es ks hg h
    simp only [inferStmts, Option.some.injEq, Prod.mk.injEq] at h
    obtain ⟨rfl, rfl⟩ := h
    exact ⟨⟨ks, hg⟩, le_refl _, fun _ h => by cases h⟩
  | cons s ss ih =>
    intro hdir href g g' es ks hg h
    simp only [directStmts, List.all_cons, Bool.and_eq_true] at hdir
    simp only [refersStmts, Bool.or_eq_false_iff] at href
    simp only [inferStmts] at h
    split at h
    · cases h
    rename_i e g1 h1
    split at h
    · cases h
    rename_i es' g2 h2
    simp only [Option.some.injEq, Prod.mk.injEq] at h
    obtain ⟨rfl, rfl⟩ := h
    obtain ⟨⟨ks1, i1⟩, n1, b1, v1⟩ := direct_stmt hd hs hp hdir.1 href.1 hg h1
    obtain ⟨i2, n2, k2⟩ := ih hdir.2 href.2 i1 h2
    refine ⟨i2, le_trans n1 n2, fun x hx => ?_⟩
    rcases List.mem_cons.mp hx with rfl | hx
    · exact ⟨b1.mono n2, v1⟩
    · exact k2 x hx

/-! ## Solving them -/

/-- The table and the inclusions before solving. -/
structure Ready (n : Nat) (t : Table) (ks : List (Eff × Nat)) : Prop where
  wf : t.WF
  low : n ≤ t.next
  own : ∀ p < n, t.rep p = p ∧ t.val p = none
  shape : ∀ d ∈ ks, ((∃ p < n, d.1 = Eff.var p) ∨ ∃ F, d.1 = Eff.ground F) ∧ d.2 < t.next ∧ n ≤ t.rep d.2 ∧
    t.val (t.rep d.2) = none
  nodup : (ks.map (fun d => t.rep d.2)).Nodup

theorem BodyInv.ready {n : Nat} {g : Gen} {ks : List (Eff × Nat)} (h : BodyInv n g ks) {a : Eff}
    (ha : a.Below g.table.next) (hv : ∀ v ∈ a.vars, n < v) :
    Ready n (unifyEffects g.table a (Eff.var n)).2 ks := by
  have low := h.low
  have wf : (unifyEffects g.table a (Eff.var n)).2.WF :=
    (unifyEffects_spec h.wf ha (Eff.below_var low)).1.wf.table
  revert wf
  unfold unifyEffects
  rw [Eff.single_var]
  cases hsing : a.single with
  | none =>
    simp only
    intro wf
    have hrep : ∀ k, (g.table.unionValue n a).rep k = k := h.rep
    have hval : ∀ k, k ≠ n → (g.table.unionValue n a).val k = g.table.val k := by
      intro k hk
      simp only [Table.unionValue, h.rep]
      rw [if_neg hk]
    refine ⟨wf, le_of_lt low, fun p hp => ⟨hrep p, ?_⟩, fun d hd => ?_, ?_⟩
    · rw [hval p (by omega)]; exact h.blank p (by omega)
    · obtain ⟨a1, a2, a3, a4⟩ := h.shape d hd
      refine ⟨a1, a3, by rw [hrep]; omega, ?_⟩
      rw [hrep, hval _ (by omega)]; exact a4
    · simp only [hrep]; exact h.nodup
  | some x =>
    simp only
    intro wf
    have hx := Eff.single_eq hsing
    subst hx
    have hnx : n < x := hv x (by simp [Eff.var])
    have hnext : (g.table.union x n).next = g.table.next := by unfold Table.union; split <;> rfl
    have hrep : ∀ k, (g.table.union x n).rep k = if k = x then n else k := by
      intro k
      unfold Table.union
      rw [if_neg (by rw [h.rep, h.rep]; omega)]
      simp only [h.rep]
    have hval : ∀ k, (g.table.union x n).val k = if k = n then g.table.val x else g.table.val k := by
      intro k
      unfold Table.union
      rw [if_neg (by rw [h.rep, h.rep]; omega)]
      simp only [h.rep]
      rw [h.blank n (le_refl n)]
      split
      · cases g.table.val x <;> rfl
      · rfl
    refine ⟨wf, by rw [hnext]; exact le_of_lt low, fun p hp => ⟨?_, ?_⟩, fun d hd => ?_, ?_⟩
    · rw [hrep, if_neg (by omega)]
    · rw [hval, if_neg (by omega)]; exact h.blank p (by omega)
    · obtain ⟨a1, a2, a3, a4⟩ := h.shape d hd
      refine ⟨a1, by rw [hnext]; exact a3, ?_, ?_⟩
      · rw [hrep]; split <;> omega
      · rw [hrep, hval]
        by_cases hdx : d.2 = x
        · rw [if_pos hdx, if_pos rfl, ← hdx]; exact a4
        · rw [if_neg hdx, if_neg (by omega)]; exact a4
    · have := h.nodup
      have e : ks.map (fun d => (g.table.union x n).rep d.2) = (ks.map (·.2)).map (fun k => if k = x then n else k) := by
        rw [List.map_map]
        refine List.map_congr_left (fun d _ => ?_)
        simp only [Function.comp_apply, hrep]
      rw [e]
      refine List.Nodup.map_on (fun u hu w hw huw => ?_) this
      obtain ⟨d, hd, rfl⟩ := List.mem_map.mp hu
      obtain ⟨d', hd', rfl⟩ := List.mem_map.mp hw
      have h1 := (h.shape d hd).2.1
      have h2 := (h.shape d' hd').2.1
      split at huw <;> split at huw <;> omega

theorem normalize_blank {t : Table} {u : Nat} (h : t.val (t.rep u) = none) : normalize t (Eff.var u) = Eff.var (t.rep u) := by
  simp only [normalize, flat, Eff.var, List.foldl_cons, List.foldl_nil, flatVar, List.lookup_nil, List.not_mem_nil,
    if_false, h]
  rfl

/-- What the values of the callbacks are after the inclusions `ks`. -/
def OwnVals (n : Nat) (t : Table) (val : Nat → Option Eff) (ks : List (Eff × Nat)) : Prop :=
  ∀ p < n, (∀ x, val p = some x → x.prims = Prims.none ∧ x.vars ≠ [] ∧
      ∀ v, v ∈ x.vars ↔ ∃ d ∈ ks, d.1 = Eff.var p ∧ v = t.rep d.2) ∧
    (val p = none → ∀ d ∈ ks, d.1 ≠ Eff.var p)

structure MainInv (n : Nat) (t : Table) (ks : List (Eff × Nat)) (s : Solver) : Prop where
  rep : s.table.rep = t.rep
  high : ∀ k, n ≤ k → s.table.val k = t.val k
  own : OwnVals n t s.table.val ks
  deferred : s.deferred = []
  pending : (s.pending.map (·.2)).Sublist (ks.map (fun d => t.rep d.2))
  known : ∀ c ∈ s.pending, ∃ F, c.1 = Eff.ground F ∧ ∃ u, (Eff.ground F, u) ∈ ks ∧ c.2 = t.rep u

theorem main_step {n : Nat} {t : Table} {ks : List (Eff × Nat)} {s : Solver} (h : MainInv n t ks s) {d : Eff × Nat}
    (hown : ∀ p < n, t.rep p = p)
    (hd : ((∃ p < n, d.1 = Eff.var p) ∨ ∃ F, d.1 = Eff.ground F) ∧ d.2 < t.next ∧ n ≤ t.rep d.2 ∧
      t.val (t.rep d.2) = none) :
    ∃ s', tryAdd s d.1 (Eff.var d.2) true = some (true, s') ∧ MainInv n t (ks ++ [d]) s' := by
  obtain ⟨hl, _, hge, hnone⟩ := hd
  obtain ⟨l, u⟩ := d
  simp only at hl hge hnone ⊢
  have hnorm : normalize s.table (Eff.var u) = Eff.var (t.rep u) := by
    have : s.table.val (s.table.rep u) = none := by rw [h.rep, h.high _ hge]; exact hnone
    rw [normalize_blank this, h.rep]
  rcases hl with ⟨p, hp, rfl⟩ | ⟨F, rfl⟩
  · have hrp : s.table.rep p = p := by rw [h.rep]; exact hown p hp
    have hacc : accumulates (s.table.val (s.table.rep p)) = true := by
      rw [hrp]
      cases hv : s.table.val p with
      | none => rfl
      | some x => simp only [accumulates, Eff.onlyVars, ((h.own p hp).1 x hv).1, decide_true]
    have e : tryAdd s (Eff.var p) (Eff.var u) true =
        some (true, { s with table := s.table.unionValue (s.table.rep p) (Eff.var (t.rep u)) }) := by
      unfold tryAdd
      rw [Eff.single_var]
      simp only [hacc, if_true, hnorm]
      rw [if_neg]
      rintro (e | e)
      · simp [Eff.var, Eff.empty] at e
      · have : t.rep u = s.table.rep p := by simpa [Eff.var] using e
        rw [hrp] at this; omega
    refine ⟨_, e, ?_⟩
    rw [hrp]
    have hval : ∀ k, (s.table.unionValue p (Eff.var (t.rep u))).val k =
        if k = p then Table.merge (s.table.val k) (some (Eff.var (t.rep u))) else s.table.val k := by
      intro k; simp only [Table.unionValue, hrp]
    refine ⟨h.rep, fun k hk => ?_, fun q hq => ?_, h.deferred, ?_, fun c hc => ?_⟩
    · simp only [hval]; rw [if_neg (by omega)]; exact h.high k hk
    · obtain ⟨o1, o2⟩ := h.own q hq
      simp only [hval]
      by_cases hqp : q = p
      · subst hqp
        simp only [if_true]
        cases hv : s.table.val q with
        | none =>
          simp only [Table.merge]
          refine ⟨fun x hx => ?_, fun hx => by cases hx⟩
          cases hx
          refine ⟨rfl, by simp [Eff.var], fun v => ?_⟩
          simp only [Eff.var, List.mem_singleton, List.mem_append]
          constructor
          · rintro rfl; exact ⟨_, .inr rfl, rfl, rfl⟩
          · rintro ⟨d, hd | rfl, h1, h2⟩
            · exact absurd h1 (o2 hv d hd)
            · exact h2
        | some y =>
          obtain ⟨y1, y2, y3⟩ := o1 y hv
          simp only [Table.merge]
          refine ⟨fun x hx => ?_, fun hx => by cases hx⟩
          cases hx
          refine ⟨by simp [Eff.union, y1, Eff.var, Prims.union, Prims.none], fun e => ?_, fun v => ?_⟩
          · have := (Eff.mem_union y (Eff.var (t.rep u)) (t.rep u)).mpr (.inr (by simp [Eff.var]))
            rw [e] at this; cases this
          · rw [Eff.mem_union, y3]
            simp only [Eff.var, List.mem_singleton, List.mem_append]
            constructor
            · rintro (⟨d, hd, h1, h2⟩ | rfl)
              · exact ⟨d, .inl hd, h1, h2⟩
              · exact ⟨_, .inr rfl, rfl, rfl⟩
            · rintro ⟨d, hd | rfl, h1, h2⟩
              · exact .inl ⟨d, hd, h1, h2⟩
              · exact .inr h2
      · simp only [if_neg hqp]
        have ne : Eff.var p ≠ Eff.var q := fun e => hqp (by simpa [Eff.var] using e.symm)
        refine ⟨fun x hx => ?_, fun hx d hd => ?_⟩
        · obtain ⟨x1, x2, x3⟩ := o1 x hx
          refine ⟨x1, x2, fun v => ?_⟩
          rw [x3]
          simp only [List.mem_append, List.mem_singleton]
          constructor
          · rintro ⟨d, hd, h1, h2⟩; exact ⟨d, .inl hd, h1, h2⟩
          · rintro ⟨d, hd | rfl, h1, h2⟩
            · exact ⟨d, hd, h1, h2⟩
            · exact absurd h1 ne
        · rcases List.mem_append.mp hd with hd | hd
          · exact o2 hx d hd
          · simp only [List.mem_singleton] at hd; subst hd; exact ne
    · rw [List.map_append]
      exact h.pending.trans (List.sublist_append_left _ _)
    · obtain ⟨F, hF, w, hw, e⟩ := h.known c hc
      exact ⟨F, hF, w, List.mem_append.mpr (.inl hw), e⟩
  · have own' : ∀ val, OwnVals n t val ks → OwnVals n t val (ks ++ [(Eff.ground F, u)]) := by
      intro val ho q hq
      obtain ⟨o1, o2⟩ := ho q hq
      have ne : Eff.ground F ≠ Eff.var q := by simp [Eff.ground, Eff.var]
      refine ⟨fun x hx => ?_, fun hx d hd => ?_⟩
      · obtain ⟨x1, x2, x3⟩ := o1 x hx
        refine ⟨x1, x2, fun v => ?_⟩
        rw [x3]
        simp only [List.mem_append, List.mem_singleton]
        constructor
        · rintro ⟨d, hd, h1, h2⟩; exact ⟨d, .inl hd, h1, h2⟩
        · rintro ⟨d, hd | rfl, h1, h2⟩
          · exact ⟨d, hd, h1, h2⟩
          · exact absurd h1 ne
      · rcases List.mem_append.mp hd with hd | hd
        · exact o2 hx d hd
        · simp only [List.mem_singleton] at hd; subst hd; exact ne
    by_cases htriv : Eff.ground F = Eff.empty ∨ Eff.ground F = Eff.var (t.rep u) ∨
        (Eff.ground F).subsetOf (Eff.var (t.rep u)) = true
    · refine ⟨s, ?_, ⟨h.rep, h.high, own' _ h.own, h.deferred, ?_, fun c hc => ?_⟩⟩
      · unfold tryAdd
        rw [single_ground]
        simp only [normalize_ground, hnorm]
        unfold addNormalized
        rw [if_pos htriv]
      · rw [List.map_append]
        exact h.pending.trans (List.sublist_append_left _ _)
      · obtain ⟨F', hF, w, hw, e⟩ := h.known c hc
        exact ⟨F', hF, w, List.mem_append.mpr (.inl hw), e⟩
    · refine ⟨{ s with pending := s.pending ++ [(Eff.ground F, t.rep u)] }, ?_,
        ⟨h.rep, h.high, own' _ h.own, h.deferred, ?_, fun c hc => ?_⟩⟩
      · unfold tryAdd
        rw [single_ground]
        simp only [normalize_ground, hnorm]
        unfold addNormalized
        rw [if_neg htriv]
        simp only [Eff.single_var]
        rfl
      · simp only [List.map_append, List.map_cons, List.map_nil]
        exact h.pending.append (List.Sublist.refl _)
      · rcases List.mem_append.mp hc with hc | hc
        · obtain ⟨F', hF, w, hw, e⟩ := h.known c hc
          exact ⟨F', hF, w, List.mem_append.mpr (.inl hw), e⟩
        · simp only [List.mem_singleton] at hc
          subst hc
          exact ⟨F, rfl, u, by simp, rfl⟩

theorem main_loop {n : Nat} {t : Table} (hown : ∀ p < n, t.rep p = p) : ∀ (ks ks0 : List (Eff × Nat)) {s : Solver},
    MainInv n t ks0 s →
    (∀ d ∈ ks, ((∃ p < n, d.1 = Eff.var p) ∨ ∃ F, d.1 = Eff.ground F) ∧ d.2 < t.next ∧ n ≤ t.rep d.2 ∧
      t.val (t.rep d.2) = none) →
    ∃ s', (ks.map (fun d => (d.1, Eff.var d.2))).foldlM (fun s c => (tryAdd s c.1 c.2 true).map (·.2)) s = some s' ∧
      MainInv n t (ks0 ++ ks) s' := by
  intro ks
  induction ks with
  | nil => intro ks0 s h _; exact ⟨s, rfl, by rw [List.append_nil]; exact h⟩
  | cons d ks ih =>
    intro ks0 s h hk
    obtain ⟨s1, e1, i1⟩ := main_step h hown (hk d List.mem_cons_self)
    obtain ⟨s2, e2, i2⟩ := ih (ks0 ++ [d]) i1 (fun x hx => hk x (List.mem_cons_of_mem _ hx))
    refine ⟨s2, ?_, by simpa using i2⟩
    rw [List.map_cons, List.foldlM_cons, e1]
    exact e2

theorem expand_blank {n : Nat} {t : Table} {F : Prims} {r : Nat} (hr : t.rep r = r) (hv : t.val r = none) :
    expand (n + 1) t (Eff.ground F) r [] = some (t.unionValue r ((Eff.ground F).union (Eff.var r))) := by
  simp only [expand, hr, List.not_mem_nil, if_false, hv]

theorem expand_loop : ∀ (ps : List (Eff × Nat)) {t : Table}, (ps.map (·.2)).Nodup →
    (∀ c ∈ ps, (∃ F, c.1 = Eff.ground F) ∧ t.rep c.2 = c.2 ∧ t.val c.2 = none) →
    ∃ T, expandAll t ps = some T ∧ T.rep = t.rep ∧ ∀ k, k ∉ ps.map (·.2) → T.val k = t.val k := by
  intro ps
  induction ps with
  | nil => intro t _ _; exact ⟨t, rfl, rfl, fun _ _ => rfl⟩
  | cons c ps ih =>
    intro t hnd h
    obtain ⟨l, r⟩ := c
    obtain ⟨⟨F, hF⟩, hr, hv⟩ := h (l, r) List.mem_cons_self
    simp only at hF hr hv
    subst hF
    obtain ⟨hn, hnd'⟩ := List.nodup_cons.mp hnd
    have hval : ∀ k, k ≠ r → (t.unionValue r ((Eff.ground F).union (Eff.var r))).val k = t.val k := by
      intro k hk
      simp only [Table.unionValue, hr]
      rw [if_neg hk]
    obtain ⟨T, e, h1, h2⟩ := ih (t := t.unionValue r ((Eff.ground F).union (Eff.var r))) hnd' (fun c hc => by
      obtain ⟨a, b, d⟩ := h c (List.mem_cons_of_mem _ hc)
      refine ⟨a, b, ?_⟩
      rw [hval]
      · exact d
      · intro e
        apply hn
        rw [← e]
        exact List.mem_map.mpr ⟨c, hc, rfl⟩)
    refine ⟨T, ?_, h1, fun k hk => ?_⟩
    · unfold expandAll at e ⊢
      rw [List.foldlM_cons, expand_blank hr hv]
      exact e
    · simp only [List.map_cons, List.mem_cons, not_or] at hk
      rw [h2 k hk.2, hval k hk.1]

/-- The solved table of a direct function. -/
structure Solved (n : Nat) (t : Table) (ks : List (Eff × Nat)) (T : Table) : Prop where
  rep : T.rep = t.rep
  own : OwnVals n t T.val ks
  sink : ∀ d ∈ ks, (∃ p, d.1 = Eff.var p) → T.val (t.rep d.2) = none

theorem Ready.solve {n : Nat} {t : Table} {ks : List (Eff × Nat)} (h : Ready n t ks) :
    ∃ T, solve t (ks.map (fun d => (d.1, Eff.var d.2))) = some T ∧ Solved n t ks T := by
  have start : MainInv n t [] ⟨t, [], []⟩ := by
    refine ⟨rfl, fun _ _ => rfl, fun p hp => ⟨fun x hx => ?_, fun _ d hd => by cases hd⟩, rfl, List.Sublist.refl _,
      fun c hc => by cases hc⟩
    rw [(h.own p hp).2] at hx; cases hx
  obtain ⟨s, e, inv⟩ := main_loop (fun p hp => (h.own p hp).1) ks [] start h.shape
  rw [List.nil_append] at inv
  have targets : ∀ c ∈ s.pending, n ≤ c.2 ∧ t.rep c.2 = c.2 ∧ t.val c.2 = none := by
    intro c hc
    obtain ⟨F, _, u, hu, e⟩ := inv.known c hc
    obtain ⟨_, _, b, d⟩ := h.shape _ hu
    rw [e]
    exact ⟨b, h.wf.flat u, d⟩
  obtain ⟨T, eT, rT, vT⟩ := expand_loop s.pending (inv.pending.nodup h.nodup) (fun c hc => by
    obtain ⟨F, hF, _⟩ := inv.known c hc
    obtain ⟨a, b, d⟩ := targets c hc
    refine ⟨⟨F, hF⟩, by rw [inv.rep]; exact b, ?_⟩
    rw [inv.high _ a]; exact d)
  refine ⟨T, ?_, ?_⟩
  · unfold EffInfer.solve
    rw [e]
    simp only
    unfold finish
    rw [eT]
    simp only [inv.deferred, retry]
    rfl
  · refine ⟨rT.trans inv.rep, fun p hp => ?_, fun d hd hp => ?_⟩
    · rw [vT p (fun hm => by
        obtain ⟨c, hc, e⟩ := List.mem_map.mp hm
        have := (targets c hc).1
        omega)]
      exact inv.own p hp
    · rw [vT, inv.high _ (h.shape d hd).2.2.1]
      · exact (h.shape d hd).2.2.2
      · intro hm
        obtain ⟨c, hc, e⟩ := List.mem_map.mp hm
        obtain ⟨F, _, u, hu, e'⟩ := inv.known c hc
        have := List.inj_on_of_nodup_map h.nodup hd hu (by simp only at e ⊢; rw [← e, e'])
        obtain ⟨p, hp⟩ := hp
        rw [this] at hp
        simp [Eff.ground, Eff.var] at hp

end Ferlium.EffInfer
