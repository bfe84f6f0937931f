import Verif.Proofs.EffectGen

/-!
# Groups of functions without callbacks
-/

namespace Ferlium.EffInfer

/-! ## The valuation given by a table -/

/-- What a variable stands for in a table, given the effects of the variables without value. -/
def tableVal (T : Table) (ρ : Nat → Prim → Prop) (k : Nat) (p : Prim) : Prop :=
  Holds T (Eff.var k) p ∨ ∃ r, Free T (Eff.var k) r ∧ ρ r p

theorem holds_of_var {T : Table} {e : Eff} {v : Nat} {p : Prim} (hv : v ∈ e.vars) (h : Holds T (Eff.var v) p) :
    Holds T e p :=
  h.mono ⟨fun q hq => by simp [Eff.var, Prims.has_none] at hq, fun w hw => by
    simp only [Eff.var, List.mem_singleton] at hw; subst hw; exact hv⟩

theorem free_of_var {T : Table} {e : Eff} {v r : Nat} (hv : v ∈ e.vars) (h : Free T (Eff.var v) r) : Free T e r :=
  h.mono ⟨fun q hq => by simp [Eff.var, Prims.has_none] at hq, fun w hw => by
    simp only [Eff.var, List.mem_singleton] at hw; subst hw; exact hv⟩

theorem den_tableVal {T : Table} {ρ : Nat → Prim → Prop} {e : Eff} {p : Prim} :
    den (tableVal T ρ) e p ↔ Holds T e p ∨ ∃ r, Free T e r ∧ ρ r p := by
  constructor
  · rintro (h | ⟨v, hv, h | ⟨r, h, hr⟩⟩)
    · exact .inl (.here h)
    · exact .inl (holds_of_var hv h)
    · exact .inr ⟨r, free_of_var hv h, hr⟩
  · rintro (h | ⟨r, h, hr⟩)
    · cases h with
      | here h => exact .inl h
      | step hv hx h => exact .inr ⟨_, hv, .inl (.step (by simp [Eff.var]) hx h)⟩
    · cases h with
      | here hv hn => exact .inr ⟨_, hv, .inr ⟨_, .here (by simp [Eff.var]) hn, hr⟩⟩
      | step hv hx h => exact .inr ⟨_, hv, .inr ⟨r, .step (by simp [Eff.var]) hx h, hr⟩⟩

theorem tableVal_solution (T : Table) (ρ : Nat → Prim → Prop) : Solution (tableVal T ρ) T := by
  refine ⟨fun a b hab p h => ?_, fun k e he p h => ?_⟩
  · rcases h with h | ⟨r, h, hr⟩
    · cases h with
      | here h => simp [Eff.var, Prims.has_none] at h
      | step hv hx h =>
        simp only [Eff.var, List.mem_singleton] at hv
        subst hv
        exact .inl (.step (v := b) (by simp [Eff.var]) (hab ▸ hx) h)
    · refine .inr ⟨r, ?_, hr⟩
      cases h with
      | here hv hn =>
        simp only [Eff.var, List.mem_singleton] at hv
        subst hv
        rw [hab]
        exact .here (by simp [Eff.var]) (hab ▸ hn)
      | step hv hx h =>
        simp only [Eff.var, List.mem_singleton] at hv
        subst hv
        exact .step (v := b) (by simp [Eff.var]) (hab ▸ hx) h
  · rcases den_tableVal.mp h with h | ⟨r, h, hr⟩
    · exact .inl (.step (by simp [Eff.var]) he h)
    · exact .inr ⟨r, .step (by simp [Eff.var]) he h, hr⟩

/-- What is reached in a table is in every valuation which respects it. -/
theorem Solution.holds {φ : Nat → Prim → Prop} {T : Table} (h : Solution φ T) {e : Eff} {p : Prim}
    (k : Holds T e p) : den φ e p := by
  induction k with
  | here h => exact .inl h
  | step hv hx _ ih => exact .inr ⟨_, hv, h.vals _ _ hx _ ih⟩

/-! ## The final types of functions without callbacks -/

theorem canon_prims (t : Table) (e : Eff) : ∀ p, (e.canon t).prims.has p = true ↔ e.prims.has p = true := by
  intro p
  have loop : ∀ (vs : List Nat) (a : Eff),
      (vs.foldl (fun a v => a.union (Eff.var (t.rep v))) a).prims.has p = true ↔ a.prims.has p = true := by
    intro vs
    induction vs with
    | nil => intro a; rfl
    | cons v vs ih =>
      intro a
      rw [List.foldl_cons, ih, Eff.has_union]
      simp [Eff.var, Prims.has_none]
  exact loop e.vars _

theorem canon_vars (t : Table) (e : Eff) (r : Nat) : r ∈ (e.canon t).vars ↔ ∃ v ∈ e.vars, r = t.rep v := by
  have loop : ∀ (vs : List Nat) (a : Eff),
      r ∈ (vs.foldl (fun a v => a.union (Eff.var (t.rep v))) a).vars ↔ r ∈ a.vars ∨ ∃ v ∈ vs, r = t.rep v := by
    intro vs
    induction vs with
    | nil => intro a; simp
    | cons v vs ih =>
      intro a
      rw [List.foldl_cons, ih, Eff.mem_union]
      simp [Eff.var, or_assoc]
  unfold Eff.canon
  rw [loop]
  simp [Eff.ground]

/-- The final type of a function without callbacks: the effects its own stand for. -/
theorem closeScheme_nil {t : Table} (h : t.WF) {e : Eff} (he : e.Below t.next) :
    (closeScheme t ⟨[], e⟩).2 = t ∧ (closeScheme t ⟨[], e⟩).1.params = [] ∧
      (closeScheme t ⟨[], e⟩).1.eff.vars = [] ∧
      ∀ p, (closeScheme t ⟨[], e⟩).1.eff.prims.has p = true ↔ Holds t e p := by
  refine ⟨rfl, rfl, by simp [closeScheme, substScheme, substParams, defaultEff, inputVars], fun p => ?_⟩
  simp only [closeScheme, substScheme, substParams, defaultEff, canon_prims, substIn]
  constructor
  · exact (flat_sound true h.flat _ [] [] e (fun _ _ h => by cases h)).1 p
  · exact (flat_full true h (c0 := []) (fun _ _ h => by cases h) e he).1 p

theorem closeAll_nil {t : Table} (h : t.WF) : ∀ (ss : List Scheme),
    (∀ s ∈ ss, s.params = [] ∧ s.eff.Below t.next) →
    (closeAll t ss).length = ss.length ∧
    ∀ (i : Nat) (s : Scheme), ss[i]? = some s → ∃ r, (closeAll t ss)[i]? = some r ∧ r.params = [] ∧ r.eff.vars = [] ∧
      ∀ p, r.eff.prims.has p = true ↔ Holds t s.eff p := by
  intro ss
  induction ss with
  | nil => intro _; exact ⟨rfl, fun i s hs => by simp at hs⟩
  | cons s ss ih =>
    intro hs
    obtain ⟨hp, hb⟩ := hs s List.mem_cons_self
    obtain ⟨ps, e⟩ := s
    simp only at hp hb
    subst hp
    obtain ⟨c1, c2, c3, c4⟩ := closeScheme_nil h hb
    obtain ⟨l, k⟩ := ih (fun x hx => hs x (List.mem_cons_of_mem _ hx))
    simp only [closeAll]
    rw [c1]
    refine ⟨by simp [l], fun i x hx => ?_⟩
    cases i with
    | zero =>
      simp only [List.getElem?_cons_zero, Option.some.injEq] at hx
      subst hx
      exact ⟨_, by simp, c2, c3, c4⟩
    | succ i =>
      simp only [List.getElem?_cons_succ] at hx ⊢
      exact k i x hx

/-! ## Statements whose inclusions have known effects below -/

mutual

/-- A statement of the direct fragment, after `n` earlier functions: natives, calls of callbacks,
calls of functions of the group without arguments, and calls of earlier functions with direct
arguments. -/
def directStmt (n : Nat) : Stmt → Bool
  | .native _ => true
  | .callParam _ => true
  | .callFn f args => (decide (f < n) || args.isEmpty) && directArgs n args

/-- Arguments of the direct fragment. -/
def directArgs (n : Nat) : List Arg → Bool
  | [] => true
  | a :: as => directArg n a && directArgs n as

/-- An argument of the direct fragment: a callback in scope, an earlier function, or a closure which
calls natives and earlier functions without arguments. -/
def directArg (n : Nat) : Arg → Bool
  | .param _ => true
  | .lam body => plainStmts n body
  | .fn g => decide (g < n)

/-- Statements which call natives and earlier functions without arguments only. -/
def plainStmts (n : Nat) : List Stmt → Bool
  | [] => true
  | .native _ :: ss => plainStmts n ss
  | .callFn f [] :: ss => decide (f < n) && plainStmts n ss
  | _ :: _ => false

end

/-- The body of a function is in the direct fragment. -/
def directStmts (n : Nat) (ss : List Stmt) : Bool := ss.all (directStmt n)

theorem inst_ground {σ : List (Nat × Eff)} {e : Eff} (h : e.vars = []) : e.inst σ = Eff.ground e.prims := by
  simp [Eff.inst, h]

/-- The use of an earlier function without parameters. -/
theorem useFn_plain {Γ : Scope} (hd : DoneOK Γ.done) {f : Nat} (hf : f < Γ.done.length) {t : Table} {s : Scheme}
    {t' : Table} (h : useFn Γ f t = some (s, t')) (hp : s.params = []) :
    t' = t ∧ ∃ s0, Γ.done[f]? = some s0 ∧ s0.params = [] ∧ s.eff = Eff.ground s0.eff.prims ∧ s0.eff.vars = [] := by
  unfold useFn at h
  have hs : Γ.done[f]? = some Γ.done[f] := by simp [hf]
  rw [hs] at h
  simp only [Option.some.injEq, Prod.mk.injEq] at h
  obtain ⟨rfl, rfl⟩ := h
  have hp0 : Γ.done[f].params = [] := by simpa using hp
  have hv : Γ.done[f].eff.vars = [] := by
    rw [List.eq_nil_iff_forall_not_mem]
    intro v hv
    have := hd _ (List.getElem_mem hf) v hv
    rw [hp0] at this
    simp [inputVars] at this
  refine ⟨by simp [hp0, inputVars, freshSubst], _, hs, hp0, inst_ground hv, hv⟩

theorem ground_union (a b : Prims) : (Eff.ground a).union (Eff.ground b) = Eff.ground (a.union b) := rfl

theorem makeDep_ground (t : Table) : ∀ (es : List Eff), (∀ e ∈ es, ∃ F, e = Eff.ground F) →
    ∃ F, makeDep t es = (Eff.ground F, t) := by
  have fold : ∀ (es : List Eff) (a : Prims), (∀ e ∈ es, ∃ F, e = Eff.ground F) →
      ∃ F, es.foldl Eff.union (Eff.ground a) = Eff.ground F := by
    intro es
    induction es with
    | nil => intro a _; exact ⟨a, rfl⟩
    | cons e es ih =>
      intro a h
      obtain ⟨F, rfl⟩ := h e List.mem_cons_self
      rw [List.foldl_cons, ground_union]
      exact ih _ (fun x hx => h x (List.mem_cons_of_mem _ hx))
  intro es h
  match es with
  | [] => exact ⟨Prims.none, rfl⟩
  | [e] =>
    obtain ⟨F, rfl⟩ := h e List.mem_cons_self
    exact ⟨F, rfl⟩
  | e :: y :: es =>
    obtain ⟨F, rfl⟩ := h e List.mem_cons_self
    obtain ⟨G, hG⟩ := fold (y :: es) F (fun x hx => h x (List.mem_cons_of_mem _ hx))
    refine ⟨G, ?_⟩
    simp only [makeDep, hG]
    rw [if_pos (.inl rfl)]

theorem inferPlain {Γ : Scope} (hd : DoneOK Γ.done) : ∀ (ss : List Stmt), plainStmts Γ.done.length ss = true →
    ∀ {g g' : Gen} {es : List Eff}, inferStmts Γ ss g = some (es, g') → g' = g ∧ ∀ e ∈ es, ∃ F, e = Eff.ground F := by
  intro ss
  induction ss with
  | nil =>
    intro _ g g' es h
    simp only [inferStmts, Option.some.injEq, Prod.mk.injEq] at h
    obtain ⟨rfl, rfl⟩ := h
    exact ⟨rfl, fun _ h => by cases h⟩
  | cons s ss ih =>
    intro hp g g' es h
    simp only [inferStmts] at h
    split at h
    · cases h
    rename_i e g1 h1
    split at h
    · cases h
    rename_i es' g2 h2
    simp only [Option.some.injEq, Prod.mk.injEq] at h
    obtain ⟨rfl, rfl⟩ := h
    have key : plainStmts Γ.done.length ss = true ∧ g1 = g ∧ ∃ F, e = Eff.ground F := by
      cases s with
      | native x =>
        simp only [plainStmts] at hp
        simp only [inferStmt, Option.some.injEq, Prod.mk.injEq] at h1
        obtain ⟨rfl, rfl⟩ := h1
        exact ⟨hp, rfl, x, rfl⟩
      | callParam i => simp [plainStmts] at hp
      | callFn f args =>
        cases args with
        | cons a as => simp [plainStmts] at hp
        | nil =>
          simp only [plainStmts, Bool.and_eq_true, decide_eq_true_eq] at hp
          simp only [inferStmt] at h1
          split at h1
          · cases h1
          rename_i s t hu
          split at h1
          · cases h1
          rename_i g3 ha
          have hps : s.params = [] := by
            cases hq : s.params with
            | nil => rfl
            | cons => rw [hq] at ha; simp only [inferArgs] at ha; cases ha
          rw [hps] at ha
          simp only [inferArgs, Option.some.injEq] at ha
          subst ha
          obtain ⟨rfl, s0, _, _, he, _⟩ := useFn_plain hd hp.1 hu hps
          simp only [Option.some.injEq, Prod.mk.injEq] at h1
          obtain ⟨F, hF⟩ := makeDep_ground g.table [Eff.empty, s.eff] (by
            intro x hx
            simp only [List.mem_cons, List.not_mem_nil, or_false] at hx
            rcases hx with rfl | rfl
            · exact ⟨Prims.none, rfl⟩
            · exact ⟨_, he⟩)
          obtain ⟨rfl, rfl⟩ := h1
          exact ⟨hp.2, by simp only [hF], F, by simp only [hF]⟩
    obtain ⟨a, rfl, F, rfl⟩ := key
    obtain ⟨rfl, k⟩ := ih a h2
    refine ⟨rfl, fun x hx => ?_⟩
    rcases List.mem_cons.mp hx with rfl | hx
    · exact ⟨F, rfl⟩
    · exact k x hx

/-- Direct arguments have known effects, or are callbacks in scope. -/
theorem inferDirectArg {Γ : Scope} (hd : DoneOK Γ.done) {a : Arg} (ha : directArg Γ.done.length a = true) {g g' : Gen}
    {e : Eff} (h : inferArg Γ a g = some (e, g')) :
    g' = g ∧ ((∃ F, e = Eff.ground F) ∨ e ∈ Γ.params) := by
  cases a with
  | param j =>
    simp only [inferArg] at h
    obtain ⟨q, hq, e⟩ := Option.map_eq_some_iff.mp h
    simp only [Prod.mk.injEq] at e
    obtain ⟨rfl, rfl⟩ := e
    exact ⟨rfl, .inr (List.mem_of_getElem? hq)⟩
  | lam body =>
    simp only [directArg] at ha
    simp only [inferArg] at h
    split at h
    · cases h
    rename_i es g1 h1
    obtain ⟨rfl, k⟩ := inferPlain hd body ha h1
    obtain ⟨F, hF⟩ := makeDep_ground g1.table es k
    simp only [Option.some.injEq, Prod.mk.injEq] at h
    obtain ⟨rfl, rfl⟩ := h
    exact ⟨by simp only [hF], .inl ⟨F, by simp only [hF]⟩⟩
  | fn f =>
    simp only [directArg, decide_eq_true_eq] at ha
    simp only [inferArg] at h
    split at h
    · cases h
    rename_i s t hu
    split at h
    · rename_i hps
      obtain ⟨rfl, s0, _, _, he, _⟩ := useFn_plain hd ha hu hps
      simp only [Option.some.injEq, Prod.mk.injEq] at h
      obtain ⟨rfl, rfl⟩ := h
      exact ⟨rfl, .inl ⟨_, he⟩⟩
    · cases h

/-! ## Direct groups of functions without callbacks -/

/-- All inclusions have known effects below. -/
def KnownBelow (g : Gen) : Prop := ∀ c ∈ g.cons, ∃ F, c.1 = Eff.ground F

theorem KnownBelow.include {g : Gen} (h : KnownBelow g) (F : Prims) (u : Eff) : KnownBelow (g.include (Eff.ground F) u) := by
  unfold Gen.include
  split
  · exact h
  · intro c hc
    rcases List.mem_append.mp hc with hc | hc
    · exact h c hc
    · simp only [List.mem_singleton] at hc; subst hc; exact ⟨F, rfl⟩

theorem known_args {Γ : Scope} (hd : DoneOK Γ.done) (hp : Γ.params = []) : ∀ (as : List Arg),
    directArgs Γ.done.length as = true → ∀ {ps : List Eff} {g g' : Gen}, KnownBelow g →
      inferArgs Γ as ps g = some g' → KnownBelow g' := by
  intro as
  induction as with
  | nil =>
    intro _ ps g g' hg h
    cases ps with
    | nil => simp only [inferArgs, Option.some.injEq] at h; subst h; exact hg
    | cons => simp only [inferArgs] at h; cases h
  | cons a as ih =>
    intro ha ps g g' hg h
    simp only [directArgs, Bool.and_eq_true] at ha
    cases ps with
    | nil => simp only [inferArgs] at h; cases h
    | cons q ps =>
      simp only [inferArgs] at h
      split at h
      · cases h
      rename_i e g1 h1
      obtain ⟨rfl, k⟩ := inferDirectArg hd ha.1 h1
      rcases k with ⟨F, rfl⟩ | k
      · exact ih ha.2 (hg.include F q) h
      · rw [hp] at k; cases k

theorem known_stmts {Γ : Scope} (hd : DoneOK Γ.done) (hp : Γ.params = []) : ∀ (ss : List Stmt),
    directStmts Γ.done.length ss = true → ∀ {g g' : Gen} {es : List Eff}, KnownBelow g →
      inferStmts Γ ss g = some (es, g') → KnownBelow g' := by
  intro ss
  induction ss with
  | nil =>
    intro _ g g' es hg h
    simp only [inferStmts, Option.some.injEq, Prod.mk.injEq] at h
    obtain ⟨rfl, rfl⟩ := h
    exact hg
  | cons s ss ih =>
    intro hs g g' es hg h
    simp only [directStmts, List.all_cons, Bool.and_eq_true] at hs
    simp only [inferStmts] at h
    split at h
    · cases h
    rename_i e g1 h1
    split at h
    · cases h
    rename_i es' g2 h2
    simp only [Option.some.injEq, Prod.mk.injEq] at h
    obtain ⟨rfl, rfl⟩ := h
    refine ih hs.2 ?_ h2
    cases s with
    | native x =>
      simp only [inferStmt, Option.some.injEq, Prod.mk.injEq] at h1
      obtain ⟨rfl, rfl⟩ := h1
      exact hg
    | callParam i => simp [inferStmt, hp] at h1
    | callFn f args =>
      have hs := hs.1
      simp only [directStmt, Bool.and_eq_true] at hs
      simp only [inferStmt] at h1
      split at h1
      · cases h1
      split at h1
      · cases h1
      rename_i g3 ha
      simp only [Option.some.injEq, Prod.mk.injEq] at h1
      obtain ⟨rfl, rfl⟩ := h1
      have hg0 : ∀ t, KnownBelow ⟨t, g.cons⟩ := fun _ => hg
      have : KnownBelow g3 := known_args hd hp args hs.2 (hg0 _) ha
      exact this

theorem known_decls {done group : List Scheme} (hd : DoneOK done) : ∀ (ds : List Decl) {ss rs : List Scheme} {g g' : Gen},
    (∀ d ∈ ds, directStmts done.length d.body = true) → (∀ s ∈ ss, s.params = []) → KnownBelow g →
      inferDecls done group ss ds g = some (rs, g') → KnownBelow g' := by
  intro ds
  induction ds with
  | nil =>
    intro ss rs g g' _ _ hg h
    cases ss <;> simp only [inferDecls, Option.some.injEq, Prod.mk.injEq] at h <;> obtain ⟨rfl, rfl⟩ := h <;> exact hg
  | cons d ds ih =>
    intro ss rs g g' hds hss hg h
    cases ss with
    | nil => simp only [inferDecls, Option.some.injEq, Prod.mk.injEq] at h; obtain ⟨rfl, rfl⟩ := h; exact hg
    | cons s ss =>
      simp only [inferDecls] at h
      split at h
      · cases h
      rename_i s1 g1 h1
      split at h
      · cases h
      rename_i rs' g2 h2
      simp only [Option.some.injEq, Prod.mk.injEq] at h
      obtain ⟨rfl, rfl⟩ := h
      refine ih (fun x hx => hds x (List.mem_cons_of_mem _ hx)) (fun x hx => hss x (List.mem_cons_of_mem _ hx)) ?_ h2
      unfold inferDecl at h1
      split at h1
      · cases h1
      rename_i es g3 h3
      simp only [Option.some.injEq, Prod.mk.injEq] at h1
      obtain ⟨rfl, rfl⟩ := h1
      have : KnownBelow g3 := known_stmts (Γ := ⟨done, group, s.params⟩) hd (hss s List.mem_cons_self) d.body
        (hds d List.mem_cons_self) hg h3
      exact this

theorem declGroup_params : ∀ (ds : List Decl) (t : Table), (∀ d ∈ ds, d.params = []) →
    ∀ s ∈ (declGroup t ds).1, s.params = [] := by
  intro ds
  induction ds with
  | nil => intro t _ s hs; simp [declGroup] at hs
  | cons d ds ih =>
    intro t h s hs
    simp only [declGroup, List.mem_cons] at hs
    rcases hs with rfl | hs
    · simp [h d List.mem_cons_self, declParams]
    · exact ih _ (fun x hx => h x (List.mem_cons_of_mem _ hx)) s hs

/-- What inference of a group must give: types for its functions which describe them, in every
extension of the program. -/
structure GroupOK (done : List Scheme) (ds : List Decl) (ss : List Scheme) : Prop where
  length : ss.length = ds.length
  closed : DoneOK ss
  ok : ∀ S : List Scheme, (∀ (i : Nat) (s : Scheme), (done ++ ss)[i]? = some s → S[i]? = some s) →
    ∀ (i : Nat) (d : Decl) (s : Scheme), ds[i]? = some d → ss[i]? = some s →
      ∀ θ : Nat → Prim → Prop, StmtsOK S (s.params.map (den θ)) d.body (den θ s.eff)

theorem nullary_group {done : List Scheme} (hd : DoneOK done) {ds : List Decl} {ss : List Scheme}
    (hnull : ∀ d ∈ ds, d.params = []) (hdir : ∀ d ∈ ds, directStmts done.length d.body = true)
    (h : inferGroup done ds = some ss) : GroupOK done ds ss ∧ ∀ s ∈ ss, s.params = [] := by
  unfold inferGroup at h
  simp only at h
  split at h
  · cases h
  rename_i rs g hg
  split at h
  · cases h
  rename_i T hT
  simp only [Option.some.injEq] at h
  subst h
  obtain ⟨w0, _, dec, len0⟩ := declGroup_spec ds Table.wf_empty
  have hps := declGroup_params ds Table.empty hnull
  generalize declGroup Table.empty ds = G at *
  have wf0 : (⟨G.2, []⟩ : Gen).WF := ⟨w0, fun _ hc => by cases hc⟩
  have known := known_decls (g := ⟨G.2, []⟩) hd ds hdir hps (fun c hc => by cases hc) hg
  have base := fun S hS => inferDecls_spec (S := S) hS hd ds wf0 len0 dec dec hg
  obtain ⟨e, len, bel, spec0⟩ := base done (fun _ _ h => h)
  obtain ⟨ext, sat⟩ := solve_spec e.wf.table e.wf.cons hT
  have hrs : ∀ r ∈ rs, r.params = [] ∧ r.eff.Below T.next := by
    intro r hr
    obtain ⟨i, hi, rfl⟩ := List.mem_iff_getElem.mp hr
    have hG : G.1[i]? = some (G.1[i]'(by omega)) := by simp
    have hD : ds[i]? = some (ds[i]'(by omega)) := by simp
    refine ⟨?_, by rw [ext.next]; exact bel _ hr⟩
    rw [(spec0 i _ _ _ hD hG (by simp)).1]
    exact hps _ (List.getElem_mem _)
  obtain ⟨len', close⟩ := closeAll_nil ext.wf rs hrs
  have out : ∀ s ∈ closeAll T rs, s.params = [] ∧ s.eff.vars = [] := by
    intro s hs
    obtain ⟨i, hi, rfl⟩ := List.mem_iff_getElem.mp hs
    obtain ⟨r, hr, hp, hv, _⟩ := close i (rs[i]'(by omega)) (by simp)
    have : (closeAll T rs)[i] = r := by
      have := List.getElem?_eq_some_iff.mp hr
      exact this.2
    rw [this]; exact ⟨hp, hv⟩
  refine ⟨⟨len'.trans len, fun s hs v hv => ?_, fun S hS i d s hdi hsi θ => ?_⟩, fun s hs => (out s hs).1⟩
  · rw [(out s hs).2] at hv; cases hv
  obtain ⟨_, _, _, spec⟩ := base S (fun j s' hs' => hS j s' (by
    rw [List.getElem?_append_left (List.getElem?_eq_some_iff.mp hs').1]; exact hs'))
  let φ := tableVal T (fun _ _ => False)
  have hden : ∀ e p, den φ e p ↔ Holds T e p := fun e p => by
    rw [den_tableVal]; simp
  have hφ : Solves φ g := by
    refine ⟨(tableVal_solution T _).earlier ext.grows, fun c hc p hp => ?_⟩
    obtain ⟨F, hF⟩ := known c hc
    obtain ⟨l, u⟩ := c
    simp only at hF
    subst hF
    rw [hden]
    exact sat F u hc p (den_ground.mp hp)
  have agree : ∀ ps, Agree S ⟨done, G.1, ps⟩ φ := by
    intro ps
    refine ⟨fun f s' hlen hs' => ?_⟩
    simp only at hlen hs'
    obtain ⟨hlt, hs''⟩ := List.getElem?_eq_some_iff.mp hs'
    have hdj : ds[f - done.length]? = some (ds[f - done.length]'(by omega)) := by simp
    have hrj : rs[f - done.length]? = some (rs[f - done.length]'(by omega)) := by simp
    obtain ⟨r, hr, hrp, hrv, hre⟩ := close _ _ hrj
    refine ⟨r, hS f r ?_, fun _ _ => False, ?_, fun p hp => ?_⟩
    · rw [List.getElem?_append_right hlen]; exact hr
    · rw [hrp, hps s' (hs'' ▸ List.getElem_mem _)]; exact .nil
    · have hp' : r.eff.prims.has p = true := by
        rcases hp with hp | ⟨v, hv, _⟩
        · exact hp
        · rw [hrv] at hv; cases hv
      have := (spec _ _ _ _ hdj hs' hrj).2 φ hφ
      exact this.1 p ((hden _ _).mpr ((hre p).mp hp'))
  obtain ⟨hilt, hdi'⟩ := List.getElem?_eq_some_iff.mp hdi
  have hri : rs[i]? = some (rs[i]'(by omega)) := by simp
  have hGi : G.1[i]? = some (G.1[i]'(by omega)) := by simp
  obtain ⟨r, hr, hrp, hrv, hre⟩ := close i _ hri
  rw [hsi] at hr
  cases hr
  obtain ⟨hpar, k⟩ := spec i d _ _ hdi hGi hri
  have ok := (k φ hφ).2 (fun _ => agree)
  have hGp : (G.1[i]'(by omega)).params = [] := hps _ (List.getElem_mem _)
  rw [hGp] at ok
  rw [hrp]
  refine StmtsOK.mono (fun _ _ h => h) d.body (fun p hp => ?_) ok
  exact .inl ((hre p).mpr ((hden _ _).mp hp))

end Ferlium.EffInfer
