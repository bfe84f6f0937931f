import Verif.Proofs.EffectClose

/-!
# Whole programs: types describe runs, and first-order programs get exactly their effects
-/

namespace Ferlium.EffInfer

/-! ## Programs of the direct fragment -/

/-- Programs of the direct fragment, after `n` functions: a group has no callbacks at all, or is one
function, not recursive, whose callbacks have no annotation. -/
inductive Direct : Nat → List (List Decl) → Prop
  | nil {n} : Direct n []
  | plain {n ds rest} : (∀ d ∈ ds, d.params = []) → (∀ d ∈ ds, directStmts n d.body = true) →
      Direct (n + ds.length) rest → Direct n (ds :: rest)
  | callbacks {n d rest} : (∀ p ∈ d.params, p = none) → directStmts n d.body = true → refersStmts n d.body = false →
      Direct (n + 1) rest → Direct n ([d] :: rest)

/-- The types of the functions inferred so far describe them, in every extension. -/
structure Described (P : List Decl) (done : List Scheme) : Prop where
  length : done.length = P.length
  closed : DoneOK done
  simple : ∀ s ∈ done, Simple s
  ok : ∀ S : List Scheme, (∀ (i : Nat) (s : Scheme), done[i]? = some s → S[i]? = some s) →
    ∀ (i : Nat) (d : Decl) (s : Scheme), P[i]? = some d → done[i]? = some s →
      ∀ θ : Nat → Prim → Prop, StmtsOK S (s.params.map (den θ)) d.body (den θ s.eff)

theorem Described.append {P : List Decl} {done : List Scheme} (h : Described P done) {ds : List Decl} {ss : List Scheme}
    (k : GroupOK done ds ss) (ks : ∀ s ∈ ss, Simple s) : Described (P ++ ds) (done ++ ss) := by
  refine ⟨by simp [h.length, k.length], fun s hs => ?_, fun s hs => ?_, fun S hS i d s hd hs => ?_⟩
  · rcases List.mem_append.mp hs with hs | hs
    · exact h.closed s hs
    · exact k.closed s hs
  · rcases List.mem_append.mp hs with hs | hs
    · exact h.simple s hs
    · exact ks s hs
  · by_cases hi : i < P.length
    · rw [List.getElem?_append_left hi] at hd
      rw [List.getElem?_append_left (by rw [h.length]; exact hi)] at hs
      refine h.ok S (fun j x hx => hS j x ?_) i d s hd hs
      rw [List.getElem?_append_left (List.getElem?_eq_some_iff.mp hx).1]; exact hx
    · rw [List.getElem?_append_right (by omega)] at hd
      rw [List.getElem?_append_right (by rw [h.length]; omega), h.length] at hs
      exact k.ok S hS _ d s hd hs

theorem inferFrom_described : ∀ (groups : List (List Decl)) {P : List Decl} {done S : List Scheme}, Described P done →
    Direct done.length groups → inferFrom done groups = some S → Described (P ++ groups.flatten) S := by
  intro groups
  induction groups with
  | nil =>
    intro P done S hd _ h
    simp only [inferFrom, Option.some.injEq] at h
    subst h
    simpa using hd
  | cons ds rest ih =>
    intro P done S hd hdir h
    simp only [inferFrom] at h
    split at h
    · cases h
    rename_i ss hg
    have key : GroupOK done ds ss ∧ (∀ s ∈ ss, Simple s) ∧ Direct (done ++ ss).length rest := by
      cases hdir with
      | plain hp hb hr =>
        obtain ⟨a, b⟩ := nullary_group hd.closed hp hb hg
        refine ⟨a, fun s hs => ⟨[], by simp [b s hs], List.nodup_nil⟩, ?_⟩
        rw [List.length_append, a.length]; exact hr
      | callbacks hp hb hf hr =>
        obtain ⟨a, b⟩ := callback_group hd.closed hd.simple hp hb hf hg
        refine ⟨a, b, ?_⟩
        rw [List.length_append, a.length]; exact hr
    have := ih (hd.append key.1 key.2.1) key.2.2 h
    rwa [List.append_assoc] at this

theorem described_nil : Described [] [] :=
  ⟨rfl, fun _ h => (by cases h), fun _ h => (by cases h), fun _ _ i d s hd => by simp at hd⟩

theorem Described.wellEff {P : List Decl} {S : List Scheme} (h : Described P S) : WellEff P S := by
  intro i d hd
  have hi : i < S.length := by rw [h.length]; exact (List.getElem?_eq_some_iff.mp hd).1
  exact ⟨S[i], by simp [hi], h.ok S (fun _ _ h => h) i d _ hd (by simp [hi])⟩

/-! ## First-order programs -/

/-- A body which calls natives and functions without arguments, among `n`. -/
def firstOrder (n : Nat) (ss : List Stmt) : Prop :=
  ∀ s ∈ ss, (∃ e, s = .native e) ∨ ∃ f < n, s = .callFn f []

/-- What a call of a function may do in the program `P`, through the calls in the bodies. -/
inductive MayDo (P : List Decl) : Nat → Prim → Prop
  | native {f d e p} : P[f]? = some d → Stmt.native e ∈ d.body → e.has p = true → MayDo P f p
  | call {f d g p} : P[f]? = some d → Stmt.callFn g [] ∈ d.body → MayDo P g p → MayDo P f p

/-- What a statement may do. -/
def StmtMay (P : List Decl) (s : Stmt) (p : Prim) : Prop :=
  (∃ e, s = .native e ∧ e.has p = true) ∨ ∃ g, s = .callFn g [] ∧ MayDo P g p

theorem mayDo_iff {P : List Decl} {f : Nat} {d : Decl} (hd : P[f]? = some d) (p : Prim) :
    MayDo P f p ↔ ∃ s ∈ d.body, StmtMay P s p := by
  constructor
  · intro h
    cases h with
    | native h1 h2 h3 =>
      rw [hd] at h1; cases h1
      exact ⟨_, h2, .inl ⟨_, rfl, h3⟩⟩
    | call h1 h2 h3 =>
      rw [hd] at h1; cases h1
      exact ⟨_, h2, .inr ⟨_, rfl, h3⟩⟩
  · rintro ⟨s, hs, ⟨e, rfl, he⟩ | ⟨g, rfl, hg⟩⟩
    · exact .native hd hs he
    · exact .call hd hs hg

/-- Values of a table with one more variable. -/
theorem Solution.newKey {φ : Nat → Prim → Prop} {t : Table} (hw : t.WF) (h : Solution φ t) {u : Eff}
    (hu : u.Below t.next) : ∃ φ' : Nat → Prim → Prop, (∀ k < t.next, ∀ p, φ' k p ↔ φ k p) ∧
      Solution φ' (t.newKey (some u)) ∧ ∀ p, φ' t.next p ↔ den φ u p := by
  classical
  let φ' : Nat → Prim → Prop := fun k p => if k = t.next then den φ u p else φ k p
  have old : ∀ k, k ≠ t.next → ∀ p, φ' k p ↔ φ k p := fun k hk p => by simp [φ', hk]
  have den' : ∀ e : Eff, e.Below t.next → ∀ p, den φ' e p ↔ den φ e p := by
    intro e he p
    unfold den
    refine or_congr_right (exists_congr fun v => and_congr_right fun hv => old v ?_ p)
    have := he v hv
    omega
  have hrn : t.rep t.next = t.next := (hw.out _ (le_refl _)).1
  have hne : ∀ k, k ≠ t.next → t.rep k ≠ t.next := by
    intro k hk e
    by_cases hk' : k < t.next
    · have := hw.rep k hk'
      omega
    · have := (hw.out k (by omega)).1
      omega
  refine ⟨φ', fun k hk => old k (by omega), ⟨fun a b hab p hp => ?_, fun k e he p hp => ?_⟩, fun p => by simp [φ']⟩
  · simp only [Table.newKey] at hab
    by_cases ha : a = t.next
    · by_cases hb : b = t.next
      · subst ha; subst hb; exact hp
      · rw [ha, hrn] at hab
        exact absurd hab.symm (hne b hb)
    · by_cases hb : b = t.next
      · rw [hb, hrn] at hab
        exact absurd hab (hne a ha)
      · rw [old b hb]; rw [old a ha] at hp
        exact h.same a b hab p hp
  · simp only [Table.newKey] at he
    by_cases hk : k = t.next
    · rw [hk, hrn, if_pos rfl] at he
      cases he
      rw [den' u hu] at hp
      simp only [φ', hk, if_true]; exact hp
    · rw [if_neg (hne k hk)] at he
      rw [old k hk]
      have hb := hw.vals _ _ he
      rw [den' e hb] at hp
      exact h.vals k e he p hp

theorem den_foldl_union {φ : Nat → Prim → Prop} (es : List Eff) : ∀ (e : Eff) (p : Prim),
    den φ (es.foldl Eff.union e) p ↔ den φ e p ∨ ∃ x ∈ es, den φ x p := by
  induction es with
  | nil => intro e p; simp
  | cons y es ih => intro e p; rw [List.foldl_cons, ih, den_union]; simp [or_assoc]

theorem den_congr {φ φ' : Nat → Prim → Prop} {n : Nat} (h : ∀ k < n, ∀ p, φ' k p ↔ φ k p) {e : Eff} (he : e.Below n)
    (p : Prim) : den φ' e p ↔ den φ e p := by
  unfold den
  exact or_congr_right (exists_congr fun v => and_congr_right fun hv => h v (he v hv) p)

theorem makeDep_extend {t : Table} (hw : t.WF) {φ : Nat → Prim → Prop} (h : Solution φ t) {es : List Eff}
    (hes : ∀ e ∈ es, e.Below t.next) : ∃ φ' : Nat → Prim → Prop, (∀ k < t.next, ∀ p, φ' k p ↔ φ k p) ∧
      Solution φ' (makeDep t es).2 ∧ ∀ p, den φ' (makeDep t es).1 p ↔ ∃ e ∈ es, den φ e p := by
  match es with
  | [] => exact ⟨φ, fun _ _ _ => Iff.rfl, h, fun p => by simp [makeDep, den_empty]⟩
  | [e] => exact ⟨φ, fun _ _ _ => Iff.rfl, h, fun p => by simp [makeDep]⟩
  | e :: y :: es =>
    simp only [makeDep]
    have hb : ((y :: es).foldl Eff.union e).Below t.next :=
      foldl_union_below _ _ (hes e List.mem_cons_self) (fun x hx => hes x (List.mem_cons_of_mem _ hx))
    have hden : ∀ p, den φ ((y :: es).foldl Eff.union e) p ↔ ∃ x ∈ e :: y :: es, den φ x p := by
      intro p
      rw [den_foldl_union]
      simp
    split
    · exact ⟨φ, fun _ _ _ => Iff.rfl, h, hden⟩
    · obtain ⟨φ', a, b, c⟩ := h.newKey hw hb
      exact ⟨φ', a, b, fun p => by rw [den_var, c, hden]⟩

theorem Solution.unionValue {φ : Nat → Prim → Prop} {t : Table} (hw : t.WF) (h : Solution φ t) {v : Nat} {e : Eff}
    (he : ∀ p, den φ e p → φ v p) : Solution φ (t.unionValue v e) := by
  refine ⟨h.same, fun k x hx p hp => ?_⟩
  simp only [Table.unionValue] at hx
  split at hx
  · rename_i hk
    cases hv : t.val (t.rep k) with
    | none =>
      rw [hv] at hx
      simp only [Table.merge, Option.some.injEq] at hx
      subst hx
      exact h.same v k hk.symm p (he p hp)
    | some y =>
      rw [hv] at hx
      simp only [Table.merge, Option.some.injEq] at hx
      subst hx
      rcases den_union.mp hp with hp | hp
      · exact h.vals k y hv p hp
      · exact h.same v k hk.symm p (he p hp)
  · exact h.vals k x hx p hp

theorem Solution.union {φ : Nat → Prim → Prop} {t : Table} (hw : t.WF) (h : Solution φ t) {a b : Nat}
    (hab : ∀ p, φ a p ↔ φ b p) : Solution φ (t.union a b) := by
  unfold Table.union
  split
  · exact h
  rename_i hne
  have cls : ∀ x, t.rep x = t.rep a → ∀ p, φ x p ↔ φ a p :=
    fun x hx p => ⟨h.same x a hx p, h.same a x hx.symm p⟩
  refine ⟨fun x y hxy p hp => ?_, fun k x hx p hp => ?_⟩
  · simp only at hxy
    split at hxy <;> split at hxy <;> rename_i h1 h2
    · exact (cls y h2 p).mpr ((cls x h1 p).mp hp)
    · exact h.same b y hxy p ((hab p).mp ((cls x h1 p).mp hp))
    · exact (cls y h2 p).mpr ((hab p).mpr (h.same x b hxy p hp))
    · exact h.same x y hxy p hp
  · simp only at hx
    by_cases hk : t.rep k = t.rep a
    · rw [if_pos hk, if_pos rfl] at hx
      rw [cls k hk]
      cases ha : t.val (t.rep a) <;> cases hb : t.val (t.rep b) <;> rw [ha, hb] at hx <;>
        simp only [Table.merge, Option.some.injEq, reduceCtorEq] at hx <;> subst hx
      · exact (hab p).mpr (h.vals b _ hb p hp)
      · exact h.vals a _ ha p hp
      · rcases den_union.mp hp with hp | hp
        · exact h.vals a _ ha p hp
        · exact (hab p).mpr (h.vals b _ hb p hp)
    · rw [if_neg hk] at hx
      by_cases hk2 : t.rep k = t.rep b
      · rw [if_pos hk2] at hx
        have := fun q => h.same b k hk2.symm q
        refine this p ?_
        cases ha : t.val (t.rep a) <;> cases hb : t.val (t.rep b) <;> rw [ha, hb] at hx <;>
          simp only [Table.merge, Option.some.injEq, reduceCtorEq] at hx <;> subst hx
        · exact h.vals b _ hb p hp
        · exact (hab p).mp (h.vals a _ ha p hp)
        · rcases den_union.mp hp with hp | hp
          · exact (hab p).mp (h.vals a _ ha p hp)
          · exact h.vals b _ hb p hp
      · rw [if_neg hk2] at hx
        exact h.vals k x hx p hp

theorem Solution.unify {φ : Nat → Prim → Prop} {t : Table} (hw : t.WF) (h : Solution φ t) {a : Eff} {k : Nat}
    (hk : ∀ p, den φ a p ↔ φ k p) : Solution φ (unifyEffects t a (Eff.var k)).2 := by
  unfold unifyEffects
  rw [Eff.single_var]
  cases ha : a.single with
  | none => exact h.unionValue hw (fun p hp => (hk p).mp hp)
  | some v =>
    have := Eff.single_eq ha
    subst this
    exact h.union hw (fun p => by rw [← hk, den_var])

/-- Earlier functions without parameters, with exactly their effects. -/
def Exact (P : List Decl) (done : List Scheme) : Prop :=
  ∀ (f : Nat) (s : Scheme), done[f]? = some s → s.params = [] ∧ s.eff.vars = [] ∧
    ∀ p, s.eff.prims.has p = true ↔ MayDo P f p

theorem makeDep_call_ground (t : Table) (F : Prims) : makeDep t [Eff.empty, Eff.ground F] = (Eff.ground F, t) := by
  have : Eff.empty.union (Eff.ground F) = Eff.ground F := by
    cases F; simp [Eff.union, Eff.empty, Eff.ground, Prims.union, Prims.none]
  simp only [makeDep, List.foldl_cons, List.foldl_nil, this]
  rw [if_pos (.inl rfl)]

theorem makeDep_call_var (t : Table) (v : Nat) : makeDep t [Eff.empty, Eff.var v] = (Eff.var v, t) := by
  have : Eff.empty.union (Eff.var v) = Eff.var v := by
    simp [Eff.union, Eff.empty, Eff.var, Prims.union, Prims.none, insVar]
  simp only [makeDep, List.foldl_cons, List.foldl_nil, this]
  rw [if_pos (.inr (by rw [Eff.single_var]; rfl))]

/-- Inference of a first-order body. -/
theorem firstOrder_stmts {P : List Decl} {Γ : Scope} (hd : Exact P Γ.done) {m : Nat}
    (hg : Γ.group = (List.range m).map (fun i => ⟨[], Eff.var i⟩)) : ∀ (ss : List Stmt),
    firstOrder (Γ.done.length + m) ss → ∀ (g : Gen), ∃ es, inferStmts Γ ss g = some (es, g) ∧
      (∀ e ∈ es, e.Below m) ∧ ∀ φ : Nat → Prim → Prop, (∀ i < m, ∀ p, φ i p ↔ MayDo P (Γ.done.length + i) p) →
        ∀ p, (∃ e ∈ es, den φ e p) ↔ ∃ s ∈ ss, StmtMay P s p := by
  intro ss
  induction ss with
  | nil => intro _ g; exact ⟨[], rfl, fun _ h => (by cases h), fun _ _ p => by simp⟩
  | cons s ss ih =>
    intro hs g
    obtain ⟨es, h1, h2, h3⟩ := ih (fun x hx => hs x (List.mem_cons_of_mem _ hx)) g
    have key : ∃ e, inferStmt Γ s g = some (e, g) ∧ e.Below m ∧
        ∀ φ : Nat → Prim → Prop, (∀ i < m, ∀ p, φ i p ↔ MayDo P (Γ.done.length + i) p) →
          ∀ p, den φ e p ↔ StmtMay P s p := by
      rcases hs s List.mem_cons_self with ⟨e, rfl⟩ | ⟨f, hf, rfl⟩
      · refine ⟨Eff.ground e, rfl, fun v hv => by simp [Eff.ground] at hv, fun φ _ p => ?_⟩
        rw [den_ground]
        simp [StmtMay]
      · by_cases hfd : f < Γ.done.length
        · have hsf : Γ.done[f]? = some Γ.done[f] := by simp [hfd]
          obtain ⟨a, b, c⟩ := hd f _ hsf
          have hu : useFn Γ f g.table = some (⟨[], Eff.ground Γ.done[f].eff.prims⟩, g.table) := by
            unfold useFn
            rw [hsf]
            simp [a, inputVars, freshSubst, inst_ground b]
          refine ⟨Eff.ground Γ.done[f].eff.prims, by simp [inferStmt, hu, inferArgs, makeDep_call_ground, makeDep_call_var], fun v hv => by simp [Eff.ground] at hv,
            fun φ _ p => ?_⟩
          rw [den_ground, c]
          simp [StmtMay]
        · have hn : Γ.done[f]? = none := by simp; omega
          have hgf : Γ.group[f - Γ.done.length]? = some ⟨[], Eff.var (f - Γ.done.length)⟩ := by
            rw [hg]
            have : f - Γ.done.length < m := by omega
            simp [this]
          have hu : useFn Γ f g.table = some (⟨[], Eff.var (f - Γ.done.length)⟩, g.table) := by
            unfold useFn
            rw [hn]
            simp [hgf]
          refine ⟨Eff.var (f - Γ.done.length), by simp [inferStmt, hu, inferArgs, makeDep_call_ground, makeDep_call_var], fun v hv => ?_, fun φ hφ p => ?_⟩
          · simp only [Eff.var, List.mem_singleton] at hv; omega
          · rw [den_var, hφ _ (by omega)]
            have : Γ.done.length + (f - Γ.done.length) = f := by omega
            rw [this]
            simp [StmtMay]
    obtain ⟨e, k1, k2, k3⟩ := key
    refine ⟨e :: es, by simp [inferStmts, k1, h1], fun x hx => ?_, fun φ hφ p => ?_⟩
    · rcases List.mem_cons.mp hx with rfl | hx
      · exact k2
      · exact h2 x hx
    · simp only [List.mem_cons, exists_eq_or_imp]
      rw [k3 φ hφ, h3 φ hφ]

/-- Inference of the bodies of a first-order group. -/
theorem firstOrder_decls {P : List Decl} {done group : List Scheme} (hd : Exact P done) {m : Nat}
    (hg : group = (List.range m).map (fun i => ⟨[], Eff.var i⟩)) : ∀ (ds : List Decl) (j : Nat),
    j + ds.length = m → (∀ (i : Nat) (d : Decl), ds[i]? = some d → P[done.length + (j + i)]? = some d) →
    (∀ d ∈ ds, firstOrder (done.length + m) d.body) →
    ∀ (g : Gen) (φ : Nat → Prim → Prop), g.WF → m ≤ g.table.next → Solution φ g.table →
      (∀ i < m, ∀ p, φ i p ↔ MayDo P (done.length + i) p) →
      ∃ rs g' φ', inferDecls done group ((List.range' j ds.length).map (fun i => ⟨[], Eff.var i⟩)) ds g = some (rs, g') ∧
        g'.cons = g.cons ∧ g'.WF ∧ m ≤ g'.table.next ∧ Solution φ' g'.table ∧
        (∀ k < g.table.next, ∀ p, φ' k p ↔ φ k p) ∧ g.table.next ≤ g'.table.next ∧ rs.length = ds.length ∧
        ∀ (i : Nat) (r : Scheme), rs[i]? = some r → r.params = [] ∧ r.eff.Below g'.table.next ∧
          ∀ p, den φ' r.eff p ↔ MayDo P (done.length + (j + i)) p := by
  intro ds
  induction ds with
  | nil =>
    intro j _ _ _ g φ hw hm hφ hφm
    exact ⟨[], g, φ, rfl, rfl, hw, hm, hφ, fun _ _ _ => Iff.rfl, le_refl _, rfl, fun i r hr => by simp at hr⟩
  | cons d ds ih =>
    intro j hj hP hfo g φ hw hm hφ hφm
    have hd0 : P[done.length + j]? = some d := hP 0 d rfl
    obtain ⟨es, h1, h2, h3⟩ := firstOrder_stmts (Γ := ⟨done, group, []⟩) hd hg d.body (hfo d List.mem_cons_self) g
    have hesb : ∀ e ∈ es, e.Below g.table.next := fun e he => (h2 e he).mono hm
    obtain ⟨φ1, a1, a2, a3⟩ := makeDep_extend hw.table hφ hesb
    obtain ⟨e1, b1, _⟩ := makeDep_spec hw hesb
    have hbody : ∀ p, den φ1 (makeDep g.table es).1 p ↔ MayDo P (done.length + j) p := by
      intro p
      rw [a3, h3 φ hφm, mayDo_iff hd0]
    -- the effects of a recursive function
    obtain ⟨w, hwdef⟩ : ∃ w, w = (if refersStmts done.length d.body then
      makeDep (makeDep g.table es).2 [Eff.empty, (makeDep g.table es).1] else makeDep g.table es) := ⟨_, rfl⟩
    have hwspec : ∃ φ2 : Nat → Prim → Prop, (∀ k < g.table.next, ∀ p, φ2 k p ↔ φ k p) ∧ Solution φ2 w.2 ∧
        (∀ p, den φ2 w.1 p ↔ MayDo P (done.length + j) p) ∧ g.Ext ⟨w.2, g.cons⟩ ∧ w.1.Below w.2.next := by
      subst hwdef
      split
      · have hb2 : ∀ e ∈ [Eff.empty, (makeDep g.table es).1], e.Below (makeDep g.table es).2.next := by
          intro e he
          rcases List.mem_cons.mp he with rfl | he
          · intro v hv; simp [Eff.empty] at hv
          · simp only [List.mem_singleton] at he; subst he; exact b1
        obtain ⟨φ2, c1, c2, c3⟩ := makeDep_extend e1.wf.table a2 hb2
        obtain ⟨e2, b2, _⟩ := makeDep_spec e1.wf hb2
        refine ⟨φ2, fun k hk p => (c1 k (lt_of_lt_of_le hk e1.next) p).trans (a1 k hk p), c2, fun p => ?_,
          e1.trans e2, b2⟩
        rw [c3]
        simp [den_empty, hbody]
      · exact ⟨φ1, a1, a2, hbody, e1, b1⟩
    obtain ⟨φ2, c1, c2, c3, e2, b2⟩ := hwspec
    have hjm : j < m := by simp only [List.length_cons] at hj; omega
    have hφ2j : ∀ p, den φ2 w.1 p ↔ φ2 j p := by
      intro p
      rw [c3, c1 j (by omega), hφm j hjm]
    have sol := c2.unify e2.wf.table hφ2j
    have hjb : (Eff.var j).Below w.2.next := Eff.below_var (by have := e2.next; simp only at this; omega)
    obtain ⟨e3, b3⟩ := unifyEffects_spec e2.wf b2 hjb
    have hu1 : (unifyEffects w.2 w.1 (Eff.var j)).1 = w.1 := unifyEffects_var.1
    have hφm2 : ∀ i < m, ∀ p, φ2 i p ↔ MayDo P (done.length + i) p :=
      fun i hi p => (c1 i (by omega) p).trans (hφm i hi p)
    have hext := e2.trans e3
    obtain ⟨rs, g', φ', k1, k2, k3, k4, k5, k6, k7, k8, k9⟩ := ih (j + 1) (by simp only [List.length_cons] at hj; omega)
      (fun i d' hd' => by
        have := hP (i + 1) d' hd'
        rwa [show j + 1 + i = j + (i + 1) by omega]) (fun x hx => hfo x (List.mem_cons_of_mem _ hx))
      ⟨(unifyEffects w.2 w.1 (Eff.var j)).2, g.cons⟩ φ2 hext.wf (le_trans hm hext.next) sol hφm2
    have hdecl : inferDecl done group ⟨[], Eff.var j⟩ d g =
        some (⟨[], (unifyEffects w.2 w.1 (Eff.var j)).1⟩, ⟨(unifyEffects w.2 w.1 (Eff.var j)).2, g.cons⟩) := by
      unfold inferDecl
      simp only [h1, hwdef]
    refine ⟨⟨[], (unifyEffects w.2 w.1 (Eff.var j)).1⟩ :: rs, g', φ', ?_, k2, k3, k4, k5, ?_, le_trans hext.next k7,
      by simp [k8], fun i r hr => ?_⟩
    · rw [List.length_cons, List.range'_succ, List.map_cons]
      simp only [inferDecls, hdecl, k1]
    · intro k hk p
      exact (k6 k (lt_of_lt_of_le hk hext.next) p).trans (c1 k hk p)
    · cases i with
      | zero =>
        simp only [List.getElem?_cons_zero, Option.some.injEq] at hr
        subst hr
        refine ⟨rfl, Eff.Below.mono b3 k7, fun p => ?_⟩
        simp only
        rw [hu1] at b3 ⊢
        rw [den_congr k6 b3, c3, Nat.add_zero]
      | succ i =>
        simp only [List.getElem?_cons_succ] at hr
        have := k9 i r hr
        rwa [show j + 1 + i = j + (i + 1) by omega] at this

theorem declGroup_plain : ∀ (ds : List Decl) (t : Table), (∀ d ∈ ds, d.params = []) →
    (declGroup t ds).1 = (List.range' t.next ds.length).map (fun i => ⟨[], Eff.var i⟩) ∧
    (declGroup t ds).2.next = t.next + ds.length ∧ (declGroup t ds).2.rep = t.rep ∧
    (∀ k, t.val k = none → (declGroup t ds).2.val k = none) := by
  intro ds
  induction ds with
  | nil => intro t _; exact ⟨rfl, rfl, rfl, fun _ h => h⟩
  | cons d ds ih =>
    intro t h
    have h0 := h d List.mem_cons_self
    obtain ⟨a, b, c, e⟩ := ih (t.newKey none) (fun x hx => h x (List.mem_cons_of_mem _ hx))
    have hn : (t.newKey none).next = t.next + 1 := rfl
    simp only [declGroup, h0, declParams]
    refine ⟨?_, by rw [b, hn, List.length_cons]; omega, c, fun k hk => e k ?_⟩
    · rw [a, hn, List.length_cons, List.range'_succ, List.map_cons]
    · simp only [Table.newKey]
      split
      · rfl
      · exact hk

theorem firstOrder_direct {n m : Nat} {ss : List Stmt} (h : firstOrder m ss) : directStmts n ss = true := by
  unfold directStmts
  rw [List.all_eq_true]
  intro s hs
  rcases h s hs with ⟨e, rfl⟩ | ⟨f, _, rfl⟩
  · simp [directStmt]
  · simp [directStmt, directArgs]

/-- Upper bound on the types of a first-order group, which is accepted. -/
theorem firstOrder_group {P : List Decl} {done : List Scheme} (hd : Exact P done) {ds : List Decl}
    (hP : ∀ (i : Nat) (d : Decl), ds[i]? = some d → P[done.length + i]? = some d)
    (hpar : ∀ d ∈ ds, d.params = []) (hfo : ∀ d ∈ ds, firstOrder (done.length + ds.length) d.body) :
    ∃ ss, inferGroup done ds = some ss ∧ ss.length = ds.length ∧ ∀ (i : Nat) (s : Scheme), ss[i]? = some s →
      s.params = [] ∧ s.eff.vars = [] ∧ ∀ p, s.eff.prims.has p = true → MayDo P (done.length + i) p := by
  obtain ⟨w0, _, _, _⟩ := declGroup_spec ds Table.wf_empty
  obtain ⟨p1, p2, p3, p4⟩ := declGroup_plain ds Table.empty hpar
  have hnext : (declGroup Table.empty ds).2.next = ds.length := by rw [p2]; simp [Table.empty]
  have hgr : (declGroup Table.empty ds).1 = (List.range ds.length).map (fun i => ⟨[], Eff.var i⟩) := by
    rw [p1]; simp [Table.empty, List.range_eq_range']
  have wf0 : (⟨(declGroup Table.empty ds).2, []⟩ : Gen).WF := ⟨w0, fun _ hc => by cases hc⟩
  have sol0 : Solution (fun k => MayDo P (done.length + k)) (declGroup Table.empty ds).2 := by
    refine ⟨fun a b hab p hp => ?_, fun k e he => ?_⟩
    · rw [p3] at hab
      simp only [Table.empty, id] at hab
      subst hab; exact hp
    · rw [p4 _ rfl] at he; cases he
  obtain ⟨rs, g', φ', k1, k2, k3, k4, k5, k6, k7, k8, k9⟩ := firstOrder_decls hd hgr ds 0 (by simp)
    (fun i d h => by rw [Nat.zero_add]; exact hP i d h) hfo ⟨(declGroup Table.empty ds).2, []⟩ _ wf0
    (by simp only [hnext]; exact le_refl _) sol0 (fun _ _ _ => Iff.rfl)
  rw [← List.range_eq_range', ← hgr] at k1
  have hcons : g'.cons = [] := k2
  have hsolve : solve g'.table g'.cons = some g'.table := by rw [hcons]; rfl
  have hrs : ∀ r ∈ rs, r.params = [] ∧ r.eff.Below g'.table.next := by
    intro r hr
    obtain ⟨i, hi, rfl⟩ := List.mem_iff_getElem.mp hr
    obtain ⟨a, b, _⟩ := k9 i rs[i] (by simp [hi])
    exact ⟨a, b⟩
  obtain ⟨len, cl⟩ := closeAll_nil k3.table rs hrs
  refine ⟨closeAll g'.table rs, ?_, by rw [len, k8], fun i s hs => ?_⟩
  · unfold inferGroup
    simp only [k1, hsolve]
  · have hi : i < rs.length := by rw [← len]; exact (List.getElem?_eq_some_iff.mp hs).1
    obtain ⟨r, hr, a, b, c⟩ := cl i rs[i] (by simp [hi])
    rw [hs] at hr
    cases hr
    refine ⟨a, b, fun p hp => ?_⟩
    have := (k9 i rs[i] (by simp [hi])).2.2 p
    rw [Nat.zero_add] at this
    exact this.mp (k5.holds ((c p).mp hp))

/-- First-order programs, after `n` functions: no callbacks, and calls of functions of the same or of
earlier groups. -/
inductive FirstOrder : Nat → List (List Decl) → Prop
  | nil {n} : FirstOrder n []
  | cons {n ds rest} : (∀ d ∈ ds, d.params = [] ∧ firstOrder (n + ds.length) d.body) →
      FirstOrder (n + ds.length) rest → FirstOrder n (ds :: rest)

theorem FirstOrder.direct {n : Nat} {groups : List (List Decl)} (h : FirstOrder n groups) : Direct n groups := by
  induction h with
  | nil => exact .nil
  | cons hd _ ih => exact .plain (fun d h => (hd d h).1) (fun d h => firstOrder_direct (hd d h).2) ih

/-- What a described function may do is in its type. -/
theorem Described.mayDo {P : List Decl} {S : List Scheme} (h : Described P S) {f : Nat} {p : Prim} (hm : MayDo P f p) :
    ∀ s, S[f]? = some s → ∀ θ : Nat → Prim → Prop, den θ s.eff p := by
  have stmts : ∀ {S : List Scheme} {Φ : List (Prim → Prop)} {ε : Prim → Prop} (ss : List Stmt), StmtsOK S Φ ss ε →
      ∀ x ∈ ss, StmtOK S Φ x ε := by
    intro S Φ ε ss
    induction ss with
    | nil => intro _ x hx; cases hx
    | cons y ss ih =>
      intro hk x hx
      simp only [StmtsOK] at hk
      rcases List.mem_cons.mp hx with rfl | hx
      · exact hk.1
      · exact ih hk.2 x hx
  induction hm with
  | native h1 h2 h3 =>
    intro s hs θ
    have := stmts _ (h.ok S (fun _ _ h => h) _ _ s h1 hs θ) _ h2
    simp only [StmtOK] at this
    exact this _ h3
  | call h1 h2 _ ih =>
    intro s hs θ
    have := stmts _ (h.ok S (fun _ _ h => h) _ _ s h1 hs θ) _ h2
    simp only [StmtOK] at this
    obtain ⟨s', hs', θ', _, k⟩ := this
    exact k _ (ih s' hs' θ')

theorem inferFrom_firstOrder {P : List Decl} : ∀ (groups : List (List Decl)) {Q : List Decl} {done : List Scheme},
    Q ++ groups.flatten = P → Described Q done → Exact P done → FirstOrder done.length groups →
    ∃ S, inferFrom done groups = some S ∧ Exact P S := by
  intro groups
  induction groups with
  | nil => intro Q done _ _ he _; exact ⟨done, rfl, he⟩
  | cons ds rest ih =>
    intro Q done hQ hd he hfo
    cases hfo with
    | cons hds hr =>
      have hP : ∀ (i : Nat) (d : Decl), ds[i]? = some d → P[done.length + i]? = some d := by
        intro i d hi
        rw [← hQ, hd.length, List.getElem?_append_right (by omega), List.flatten_cons]
        have hlt := (List.getElem?_eq_some_iff.mp hi).1
        rw [show Q.length + i - Q.length = i by omega, List.getElem?_append_left hlt]
        exact hi
      obtain ⟨ss, h1, h2, h3⟩ := firstOrder_group he hP (fun d h => (hds d h).1) (fun d h => (hds d h).2)
      obtain ⟨a, b⟩ := nullary_group hd.closed (fun d h => (hds d h).1) (fun d h => firstOrder_direct (hds d h).2) h1
      have hd' := hd.append a (fun s hs => ⟨[], by simp [b s hs], List.nodup_nil⟩)
      have he' : Exact P (done ++ ss) := by
        intro f s hs
        by_cases hf : f < done.length
        · rw [List.getElem?_append_left hf] at hs
          exact he f s hs
        · have hs0 := hs
          rw [List.getElem?_append_right (by omega)] at hs
          obtain ⟨x, y, z⟩ := h3 _ s hs
          refine ⟨x, y, fun p => ⟨fun hp => ?_, fun hp => ?_⟩⟩
          · have := z p hp
            rwa [show done.length + (f - done.length) = f by omega] at this
          · have key : ∀ {g : Nat}, MayDo P g p → ∀ s, (done ++ ss)[g]? = some s → s.eff.prims.has p = true := by
              intro g hg
              have up : ∀ {g : Nat}, MayDo P g p → g < (Q ++ ds).length → MayDo (Q ++ ds) g p := by
                clear hg hp
                intro g hg
                induction hg with
                | native h1 h2 h3 =>
                  intro hlt
                  refine .native ?_ h2 h3
                  rw [← h1, ← hQ, List.flatten_cons, ← List.append_assoc]
                  exact (List.getElem?_append_left hlt).symm
                | call h1 h2 hm ih =>
                  rename_i f d g q
                  intro hlt
                  have hfd : (Q ++ ds)[f]? = some d := by
                    rw [← h1, ← hQ, List.flatten_cons, ← List.append_assoc]
                    exact (List.getElem?_append_left hlt).symm
                  refine .call hfd h2 (ih ?_)
                  by_contra hbig
                  -- an earlier body only calls functions before
                  have hsf : f < (done ++ ss).length := by rw [hd'.length]; exact hlt
                  have := hd'.ok (done ++ ss) (fun _ _ h => h) f d (done ++ ss)[f] hfd (List.getElem?_eq_getElem hsf) (fun _ _ => False)
                  have hmem : ∀ (xs : List Stmt) {Φ : List (Prim → Prop)} {ε : Prim → Prop},
                      StmtsOK (done ++ ss) Φ xs ε → ∀ x ∈ xs, StmtOK (done ++ ss) Φ x ε := by
                    intro xs
                    induction xs with
                    | nil => intro _ _ _ x hx; cases hx
                    | cons y xs ih =>
                      intro Φ ε hk x hx
                      simp only [StmtsOK] at hk
                      rcases List.mem_cons.mp hx with rfl | hx
                      · exact hk.1
                      · exact ih hk.2 x hx
                  have k := hmem _ this _ h2
                  simp only [StmtOK] at k
                  obtain ⟨s', hs', _⟩ := k
                  have := (List.getElem?_eq_some_iff.mp hs').1
                  rw [hd'.length] at this
                  exact hbig this
              intro s hs
              have hlt := (List.getElem?_eq_some_iff.mp hs).1
              rw [hd'.length] at hlt
              have := hd'.mayDo (up hg hlt) s hs (fun _ _ => False)
              rcases this with h | ⟨_, _, h⟩
              · exact h
              · exact h.elim
            exact key hp s hs0
      have hr' : FirstOrder (done ++ ss).length rest := by rw [List.length_append, a.length]; exact hr
      obtain ⟨S, e1, e2⟩ := ih (Q := Q ++ ds) (by rw [List.append_assoc, ← List.flatten_cons]; exact hQ) hd' he' hr'
      exact ⟨S, by simp only [inferFrom, h1]; exact e1, e2⟩

end Ferlium.EffInfer
