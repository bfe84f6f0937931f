import Verif.Proofs.EffectProgram

/-!
# Annotated parameters: known effects of arguments are within the annotation
-/

namespace Ferlium.EffInfer

/-! ## The types of annotated parameters -/

theorem substParams_length (t : Table) : ∀ (ps : List Eff) (c : Cache), (substParams t c ps).1.length = ps.length := by
  intro ps
  induction ps with
  | nil => intro c; rfl
  | cons e ps ih => intro c; simp [substParams, ih]

theorem substParams_ground (t : Table) {B : Prims} : ∀ (ps : List Eff) (c : Cache) (j : Nat),
    ps[j]? = some (Eff.ground B) → (substParams t c ps).1[j]? = some (Eff.ground B) := by
  intro ps
  induction ps with
  | nil => intro c j h; simp at h
  | cons e ps ih =>
    intro c j h
    cases j with
    | zero =>
      simp only [List.getElem?_cons_zero, Option.some.injEq] at h
      subst h
      simp only [substParams, List.getElem?_cons_zero]
      rfl
    | succ j =>
      simp only [List.getElem?_cons_succ] at h
      simp only [substParams, List.getElem?_cons_succ]
      exact ih _ j h

theorem closeScheme_keeps (t : Table) (s : Scheme) :
    (closeScheme t s).1.params.length = s.params.length ∧
    (∀ v ∈ (closeScheme t s).1.eff.vars, v ∈ inputVars (closeScheme t s).1.params) ∧
    ∀ (j : Nat) (B : Prims), s.params[j]? = some (Eff.ground B) → (closeScheme t s).1.params[j]? = some (Eff.ground B) := by
  refine ⟨by simp [closeScheme, substScheme, substParams_length], fun v hv => ?_, fun j B h => ?_⟩
  · simp only [closeScheme, defaultEff, List.mem_filter, decide_eq_true_eq] at hv
    exact hv.2
  · simp only [closeScheme, substScheme, List.getElem?_map]
    rw [substParams_ground t s.params [] j h]
    rfl

theorem closeAll_keeps : ∀ (ss : List Scheme) (t : Table), (closeAll t ss).length = ss.length ∧
    DoneOK (closeAll t ss) ∧ ∀ (i : Nat) (s r : Scheme), ss[i]? = some s → (closeAll t ss)[i]? = some r →
      r.params.length = s.params.length ∧
      ∀ (j : Nat) (B : Prims), s.params[j]? = some (Eff.ground B) → r.params[j]? = some (Eff.ground B) := by
  intro ss
  induction ss with
  | nil => intro t; exact ⟨rfl, fun _ h => (by cases h), fun i s r h => by simp at h⟩
  | cons s ss ih =>
    intro t
    obtain ⟨a, b, c⟩ := closeScheme_keeps t s
    obtain ⟨l, d, k⟩ := ih (closeScheme t s).2
    simp only [closeAll]
    refine ⟨by simp [l], fun x hx => ?_, fun i x r hx hr => ?_⟩
    · rcases List.mem_cons.mp hx with rfl | hx
      · exact b
      · exact d x hx
    · cases i with
      | zero =>
        simp only [List.getElem?_cons_zero, Option.some.injEq] at hx hr
        subst hx; subst hr
        exact ⟨a, c⟩
      | succ i =>
        simp only [List.getElem?_cons_succ] at hx hr
        exact k i x r hx hr

theorem declParams_keeps : ∀ (ps : List (Option Prims)) (t : Table), (declParams t ps).1.length = ps.length ∧
    ∀ (j : Nat) (B : Prims), ps[j]? = some (some B) → (declParams t ps).1[j]? = some (Eff.ground B) := by
  intro ps
  induction ps with
  | nil => intro t; exact ⟨rfl, fun j B h => by simp at h⟩
  | cons p ps ih =>
    intro t
    cases p with
    | none =>
      obtain ⟨a, b⟩ := ih (t.newKey none)
      refine ⟨by simp [declParams, a], fun j B h => ?_⟩
      cases j with
      | zero => simp at h
      | succ j => simp only [List.getElem?_cons_succ] at h; simpa [declParams] using b j B h
    | some e =>
      obtain ⟨a, b⟩ := ih t
      refine ⟨by simp [declParams, a], fun j B h => ?_⟩
      cases j with
      | zero => simp only [List.getElem?_cons_zero, Option.some.injEq] at h; simp [declParams, h]
      | succ j => simp only [List.getElem?_cons_succ] at h; simpa [declParams] using b j B h

theorem declGroup_keeps : ∀ (ds : List Decl) (t : Table) (i : Nat) (d : Decl) (s : Scheme), ds[i]? = some d →
    (declGroup t ds).1[i]? = some s → s.params.length = d.params.length ∧
    ∀ (j : Nat) (B : Prims), d.params[j]? = some (some B) → s.params[j]? = some (Eff.ground B) := by
  intro ds
  induction ds with
  | nil => intro t i d s h; simp at h
  | cons d0 ds ih =>
    intro t i d s hd hs
    cases i with
    | zero =>
      simp only [declGroup, List.getElem?_cons_zero, Option.some.injEq] at hd hs
      subst hd; subst hs
      exact declParams_keeps _ t
    | succ i =>
      simp only [declGroup, List.getElem?_cons_succ] at hd hs
      exact ih _ i d s hd hs

/-- The types of functions inferred so far follow the annotations. -/
structure Annotated (P : List Decl) (done : List Scheme) : Prop where
  length : done.length = P.length
  closed : DoneOK done
  params : ∀ (i : Nat) (d : Decl) (s : Scheme), P[i]? = some d → done[i]? = some s →
    s.params.length = d.params.length ∧
    ∀ (j : Nat) (B : Prims), d.params[j]? = some (some B) → s.params[j]? = some (Eff.ground B)

theorem inferGroup_annotated {P : List Decl} {done : List Scheme} (h : Annotated P done) {ds : List Decl}
    {ss : List Scheme} (hg : inferGroup done ds = some ss) : Annotated (P ++ ds) (done ++ ss) ∧ ss.length = ds.length := by
  unfold inferGroup at hg
  simp only at hg
  split at hg
  · cases hg
  rename_i rs g hi
  split at hg
  · cases hg
  rename_i T hT
  simp only [Option.some.injEq] at hg
  subst hg
  obtain ⟨w0, _, dec, len0⟩ := declGroup_spec ds Table.wf_empty
  have wf0 : (⟨(declGroup Table.empty ds).2, []⟩ : Gen).WF := ⟨w0, fun _ hc => by cases hc⟩
  obtain ⟨_, len, _, spec⟩ := inferDecls_spec (S := done) (fun _ _ h => h) h.closed ds wf0 len0 dec dec hi
  obtain ⟨cl, cd, ck⟩ := closeAll_keeps rs T
  refine ⟨⟨by simp [h.length, cl, len], fun s hs => ?_, fun i d s hd hs => ?_⟩, by rw [cl, len]⟩
  · rcases List.mem_append.mp hs with hs | hs
    · exact h.closed s hs
    · exact cd s hs
  · by_cases hip : i < P.length
    · rw [List.getElem?_append_left hip] at hd
      rw [List.getElem?_append_left (by rw [h.length]; exact hip)] at hs
      exact h.params i d s hd hs
    · rw [List.getElem?_append_right (by omega)] at hd
      rw [List.getElem?_append_right (by rw [h.length]; omega), h.length] at hs
      have hlt := (List.getElem?_eq_some_iff.mp hd).1
      have hG : (declGroup Table.empty ds).1[i - P.length]? =
        some ((declGroup Table.empty ds).1[i - P.length]'(by omega)) := List.getElem?_eq_getElem _
      have hr : rs[i - P.length]? = some (rs[i - P.length]'(by omega)) := List.getElem?_eq_getElem _
      obtain ⟨a, b⟩ := declGroup_keeps ds _ _ d _ hd hG
      obtain ⟨c, e⟩ := ck _ _ s hr hs
      have par := (spec _ d _ _ hd hG hr).1
      rw [par] at c e
      exact ⟨c.trans a, fun j B hB => e j B (b j B hB)⟩

theorem inferFrom_split : ∀ (pre : List (List Decl)) {P : List Decl} {done S : List Scheme} {ds : List Decl}
    {post : List (List Decl)}, Annotated P done → inferFrom done (pre ++ ds :: post) = some S →
    ∃ done' ss more, Annotated (P ++ pre.flatten) done' ∧ inferGroup done' ds = some ss ∧ S = done' ++ (ss ++ more) := by
  intro pre
  induction pre with
  | nil =>
    intro P done S ds post ha h
    simp only [List.nil_append, inferFrom] at h
    split at h
    · cases h
    rename_i ss hg
    have app : ∀ (gs : List (List Decl)) (done S : List Scheme), inferFrom done gs = some S → ∃ more, S = done ++ more := by
      intro gs
      induction gs with
      | nil =>
        intro done S h
        simp only [inferFrom, Option.some.injEq] at h
        exact ⟨[], by simp [h]⟩
      | cons x gs ih =>
        intro done S h
        simp only [inferFrom] at h
        split at h
        · cases h
        rename_i ss' _
        obtain ⟨more, rfl⟩ := ih _ _ h
        exact ⟨ss' ++ more, by rw [List.append_assoc]⟩
    obtain ⟨more, rfl⟩ := app _ _ _ h
    exact ⟨done, ss, more, by simpa using ha, hg, by rw [List.append_assoc]⟩
  | cons x pre ih =>
    intro P done S ds post ha h
    simp only [List.cons_append, inferFrom] at h
    split at h
    · cases h
    rename_i ss hg
    obtain ⟨a, _⟩ := inferGroup_annotated ha hg
    obtain ⟨done', ss', more, b, c, d⟩ := ih a h
    exact ⟨done', ss', more, by simpa [List.append_assoc] using b, c, d⟩

/-! ## The inclusions of arguments -/

theorem inferArgs_cons {Γ : Scope} {a : Arg} {q : Eff} : ∀ (as : List Arg) {ps : List Eff} {g g' : Gen} {j : Nat}, g.WF →
    Γ.WF g.table.next → (∀ e ∈ ps, e.Below g.table.next) → inferArgs Γ as ps g = some g' → as[j]? = some a →
    ps[j]? = some q → ∃ g0 e g1, inferArg Γ a g0 = some (e, g1) ∧ (e = q ∨ (e, q) ∈ g'.cons) := by
  intro as
  induction as with
  | nil => intro ps g g' j _ _ _ _ h; simp at h
  | cons x as ih =>
    intro ps g g' j hw hΓ hps h ha hq
    cases ps with
    | nil => simp at hq
    | cons y ps =>
      simp only [inferArgs] at h
      split at h
      · cases h
      rename_i e g1 h1
      obtain ⟨ext, hb, _⟩ := inferArg_spec (S := Γ.done) (fun _ _ h => h) x hw hΓ h1
      have hyb := (hps y List.mem_cons_self).mono ext.next
      obtain ⟨ext2, htab⟩ := ext.wf.include hb hyb
      have hps'' : ∀ z ∈ ps, z.Below (g1.include e y).table.next := fun z hz => by
        rw [htab]; exact (hps z (List.mem_cons_of_mem _ hz)).mono ext.next
      obtain ⟨ext3, _⟩ := inferArgs_spec (S := Γ.done) (fun _ _ h => h) as ext2.wf (hΓ.mono (le_trans ext.next ext2.next)) hps'' h
      cases j with
      | zero =>
        simp only [List.getElem?_cons_zero, Option.some.injEq] at ha hq
        subst ha; subst hq
        refine ⟨g, e, g1, h1, ?_⟩
        by_cases he : e = y
        · exact .inl he
        · refine .inr (ext3.cons _ ?_)
          simp [Gen.include, he]
      | succ j =>
        simp only [List.getElem?_cons_succ] at ha hq
        exact ih ext2.wf (hΓ.mono (le_trans ext.next ext2.next)) hps'' h ha hq

theorem inferStmts_cons {Γ : Scope} {f : Nat} {args : List Arg} {j : Nat} {a : Arg} {B : Prims} {s : Scheme}
    (hs : Γ.done[f]? = some s) (hB : s.params[j]? = some (Eff.ground B)) (ha : args[j]? = some a) :
    ∀ (ss : List Stmt) {g g' : Gen} {es : List Eff}, g.WF → Γ.WF g.table.next → inferStmts Γ ss g = some (es, g') →
    Stmt.callFn f args ∈ ss →
    ∃ g0 e g1, inferArg Γ a g0 = some (e, g1) ∧ (e = Eff.ground B ∨ (e, Eff.ground B) ∈ g'.cons) := by
  intro ss
  induction ss with
  | nil => intro g g' es _ _ _ h; cases h
  | cons x ss ih =>
    intro g g' es hw hΓ h hm
    simp only [inferStmts] at h
    split at h
    · cases h
    rename_i e g1 h1
    split at h
    · cases h
    rename_i es' g2 h2
    simp only [Option.some.injEq, Prod.mk.injEq] at h
    obtain ⟨rfl, rfl⟩ := h
    obtain ⟨ext, _, _⟩ := inferStmt_spec (S := Γ.done) (fun _ _ h => h) x hw hΓ h1
    obtain ⟨ext2, _, _⟩ := inferStmts_spec (S := Γ.done) (fun _ _ h => h) ss ext.wf (hΓ.mono ext.next) h2
    rcases List.mem_cons.mp hm with rfl | hm
    · simp only [inferStmt] at h1
      split at h1
      · cases h1
      rename_i s' t hu
      obtain ⟨ue, _, ub, _⟩ := useFn_spec (S := Γ.done) hw hΓ (fun _ _ h => h) hu
      split at h1
      · cases h1
      rename_i g3 h3
      simp only [Option.some.injEq, Prod.mk.injEq] at h1
      obtain ⟨_, rfl⟩ := h1
      have hq : s'.params[j]? = some (Eff.ground B) := by
        unfold useFn at hu
        rw [hs] at hu
        simp only [Option.some.injEq, Prod.mk.injEq] at hu
        obtain ⟨rfl, _⟩ := hu
        simp only [List.getElem?_map, hB, Option.map_some]
        rfl
      obtain ⟨g0, e0, g4, k1, k2⟩ := inferArgs_cons args ue.wf (hΓ.mono ue.next) ub h3 ha hq
      exact ⟨g0, e0, g4, k1, k2.imp_right (ext2.cons _)⟩
    · exact ih ext.wf (hΓ.mono ext.next) h2 hm

theorem inferDecls_cons {done group : List Scheme} (hdone : DoneOK done) {f : Nat} {args : List Arg} {j : Nat} {a : Arg}
    {B : Prims} {s : Scheme} (hs : done[f]? = some s) (hB : s.params[j]? = some (Eff.ground B)) (ha : args[j]? = some a)
    {d : Decl} (hm : Stmt.callFn f args ∈ d.body) :
    ∀ (ds : List Decl) {ss rs : List Scheme} {g g' : Gen}, g.WF → ss.length = ds.length →
      Declared g.table.next group → Declared g.table.next ss → inferDecls done group ss ds g = some (rs, g') → d ∈ ds →
    ∃ Γ g0 e g1, Γ.done = done ∧ inferArg Γ a g0 = some (e, g1) ∧ (e = Eff.ground B ∨ (e, Eff.ground B) ∈ g'.cons) := by
  intro ds
  induction ds with
  | nil => intro ss rs g g' _ _ _ _ _ h; cases h
  | cons x ds ih =>
    intro ss rs g g' hw hl hg hss h hd
    cases ss with
    | nil => simp at hl
    | cons y ss =>
      simp only [inferDecls] at h
      split at h
      · cases h
      rename_i r g1 h1
      split at h
      · cases h
      rename_i rs' g2 h2
      simp only [Option.some.injEq, Prod.mk.injEq] at h
      obtain ⟨rfl, rfl⟩ := h
      obtain ⟨⟨k, hk, hkb⟩, hyp⟩ := hss y List.mem_cons_self
      have hΓ : (⟨done, group, y.params⟩ : Scope).WF g.table.next := by
        refine ⟨hdone, fun z hz => ?_, hyp⟩
        obtain ⟨⟨kz, hkz, hkzb⟩, hz2⟩ := hg z hz
        exact ⟨by rw [hkz]; exact Eff.below_var hkzb, hz2⟩
      obtain ⟨ext, _, _, _⟩ := inferDecl_spec (S := done) (fun _ _ h => h) hw hΓ hk hkb h1
      have mono : ∀ {xs : List Scheme}, Declared g.table.next xs → Declared g1.table.next xs := by
        intro xs hx z hz
        obtain ⟨⟨kz, hkz, hkzb⟩, hz2⟩ := hx z hz
        exact ⟨⟨kz, hkz, lt_of_lt_of_le hkzb ext.next⟩, fun e he => (hz2 e he).mono ext.next⟩
      have hss' : Declared g1.table.next ss := mono (fun z hz => hss z (List.mem_cons_of_mem _ hz))
      have hl' : ss.length = ds.length := by simpa using hl
      obtain ⟨ext2, _, _, _⟩ := inferDecls_spec (S := done) (fun _ _ h => h) hdone ds ext.wf hl' (mono hg) hss' h2
      rcases List.mem_cons.mp hd with rfl | hd
      · unfold inferDecl at h1
        split at h1
        · cases h1
        rename_i es g3 h3
        obtain ⟨g0, e0, g4, k1, k2⟩ := inferStmts_cons hs hB ha d.body hw hΓ h3 hm
        simp only [Option.some.injEq, Prod.mk.injEq] at h1
        have hc : g3.cons = g1.cons := by rw [← h1.2]
        refine ⟨_, g0, e0, g4, rfl, k1, k2.imp_right (fun h => ext2.cons _ (by rw [← hc]; exact h))⟩
      · exact ih ext.wf hl' (mono hg) hss' h2 hd

/-! ## The known effects of an argument -/

/-- What an argument does by its form and the types of the functions it names: an earlier function,
or a closure which calls natives and earlier functions without arguments. -/
def ArgDoes (S : List Scheme) (a : Arg) (p : Prim) : Prop :=
  (∃ g s, a = .fn g ∧ S[g]? = some s ∧ s.eff.prims.has p = true) ∨
  ∃ body, a = .lam body ∧ ((∃ e, Stmt.native e ∈ body ∧ e.has p = true) ∨
    ∃ h s, Stmt.callFn h [] ∈ body ∧ S[h]? = some s ∧ s.eff.prims.has p = true)

/-- An argument with known effects: it refers to `n` earlier functions only, and to no parameter. -/
def knownArg (n : Nat) : Arg → Bool
  | .param _ => false
  | .lam body => plainStmts n body
  | .fn g => decide (g < n)

theorem inferPlain_has {Γ : Scope} (hd : DoneOK Γ.done) : ∀ (ss : List Stmt), plainStmts Γ.done.length ss = true →
    ∀ {g g' : Gen} {es : List Eff}, inferStmts Γ ss g = some (es, g') → ∀ p,
      ((∃ e, Stmt.native e ∈ ss ∧ e.has p = true) ∨
        ∃ h s, Stmt.callFn h [] ∈ ss ∧ Γ.done[h]? = some s ∧ s.eff.prims.has p = true) →
      ∃ e ∈ es, e.prims.has p = true := by
  intro ss
  induction ss with
  | nil => intro _ g g' es _ p hp; rcases hp with ⟨_, h, _⟩ | ⟨_, _, h, _⟩ <;> cases h
  | cons x ss ih =>
    intro hpl g g' es h p hp
    have hpl0 := hpl
    simp only [inferStmts] at h
    split at h
    · cases h
    rename_i e g1 h1
    split at h
    · cases h
    rename_i es' g2 h2
    simp only [Option.some.injEq, Prod.mk.injEq] at h
    obtain ⟨rfl, rfl⟩ := h
    have tail : plainStmts Γ.done.length ss = true := by
      cases x with
      | native _ => simpa [plainStmts] using hpl
      | callParam _ => simp [plainStmts] at hpl
      | callFn f args =>
        cases args with
        | cons _ _ => simp [plainStmts] at hpl
        | nil => simp only [plainStmts, Bool.and_eq_true] at hpl; exact hpl.2
    by_cases hx : (∃ e, Stmt.native e = x ∧ e.has p = true) ∨
        ∃ h s, Stmt.callFn h [] = x ∧ Γ.done[h]? = some s ∧ s.eff.prims.has p = true
    · refine ⟨e, List.mem_cons_self, ?_⟩
      rcases hx with ⟨e0, rfl, he⟩ | ⟨f, s, rfl, hs, he⟩
      · simp only [inferStmt, Option.some.injEq, Prod.mk.injEq] at h1
        rw [← h1.1]; exact he
      · simp only [inferStmt] at h1
        split at h1
        · cases h1
        rename_i s' t hu
        split at h1
        · cases h1
        rename_i g3 h3
        have hs'p : s'.params = [] := by
          cases hsp : s'.params with
          | nil => rfl
          | cons _ _ => rw [hsp] at h3; simp [inferArgs] at h3
        have hf := (List.getElem?_eq_some_iff.mp hs).1
        obtain ⟨rfl, s0, hs0, _, hse, _⟩ := useFn_plain hd hf hu hs'p
        rw [hs] at hs0; cases hs0
        rw [hse, makeDep_call_ground] at h1
        simp only [Option.some.injEq, Prod.mk.injEq] at h1
        rw [← h1.1]; exact he
    · have hp' : ((∃ e, Stmt.native e ∈ ss ∧ e.has p = true) ∨
        ∃ h s, Stmt.callFn h [] ∈ ss ∧ Γ.done[h]? = some s ∧ s.eff.prims.has p = true) := by
        rcases hp with ⟨e0, hm, he⟩ | ⟨f, s, hm, hs, he⟩
        · rcases List.mem_cons.mp hm with hm | hm
          · exact absurd (.inl ⟨e0, hm, he⟩) hx
          · exact .inl ⟨e0, hm, he⟩
        · rcases List.mem_cons.mp hm with hm | hm
          · exact absurd (.inr ⟨f, s, hm, hs, he⟩) hx
          · exact .inr ⟨f, s, hm, hs, he⟩
      obtain ⟨e0, hm, he⟩ := ih tail h2 p hp'
      exact ⟨e0, List.mem_cons_of_mem _ hm, he⟩

theorem inferArg_known {Γ : Scope} (hd : DoneOK Γ.done) {a : Arg} (ha : knownArg Γ.done.length a = true) {g g' : Gen}
    {e : Eff} (h : inferArg Γ a g = some (e, g')) :
    ∃ F, e = Eff.ground F ∧ ∀ p, ArgDoes Γ.done a p → F.has p = true := by
  cases a with
  | param j => simp [knownArg] at ha
  | lam body =>
    simp only [knownArg] at ha
    simp only [inferArg] at h
    split at h
    · cases h
    rename_i es g1 h1
    have has := inferPlain_has hd body ha h1
    obtain ⟨rfl, k⟩ := inferPlain hd body ha h1
    obtain ⟨F, hF⟩ := makeDep_ground g1.table es k
    simp only [Option.some.injEq, Prod.mk.injEq] at h
    obtain ⟨rfl, rfl⟩ := h
    refine ⟨F, by rw [hF], fun p hp => ?_⟩
    rcases hp with ⟨g, s, h, _⟩ | ⟨b, hb, hp⟩
    · cases h
    · cases hb
      obtain ⟨e, he, hep⟩ := has p hp
      have fold : ∀ (es : List Eff) (x : Eff), x.prims.has p = true ∨ (∃ e ∈ es, e.prims.has p = true) →
          (es.foldl Eff.union x).prims.has p = true := by
        intro es
        induction es with
        | nil => intro x hx; rcases hx with hx | ⟨_, h, _⟩ <;> [exact hx; cases h]
        | cons y es ih =>
          intro x hx
          refine ih _ ?_
          rcases hx with hx | ⟨e, he, hx⟩
          · exact .inl ((Eff.has_union _ _ _).mpr (.inl hx))
          · rcases List.mem_cons.mp he with rfl | he
            · exact .inl ((Eff.has_union _ _ _).mpr (.inr hx))
            · exact .inr ⟨e, he, hx⟩
      match es, hF, he with
      | [x], hF, he =>
        simp only [makeDep, Prod.mk.injEq] at hF
        simp only [List.mem_singleton] at he
        subst he
        rw [hF.1] at hep; exact hep
      | x :: y :: zs, hF, he =>
        have hu : ((y :: zs).foldl Eff.union x).prims.has p = true := by
          refine fold _ _ ?_
          rcases List.mem_cons.mp he with rfl | he
          · exact .inl hep
          · exact .inr ⟨e, he, hep⟩
        simp only [makeDep] at hF
        split at hF
        · simp only [Prod.mk.injEq] at hF
          rw [hF.1] at hu; exact hu
        · simp [Eff.var, Eff.ground] at hF
  | fn f =>
    simp only [knownArg, decide_eq_true_eq] at ha
    simp only [inferArg] at h
    split at h
    · cases h
    rename_i s t hu
    split at h
    · rename_i hps
      obtain ⟨rfl, s0, hs0, _, he, _⟩ := useFn_plain hd ha hu hps
      simp only [Option.some.injEq, Prod.mk.injEq] at h
      obtain ⟨rfl, rfl⟩ := h
      refine ⟨_, he, fun p hp => ?_⟩
      rcases hp with ⟨g, s, h, hs, hp⟩ | ⟨b, hb, _⟩
      · cases h
        rw [hs0] at hs; cases hs
        exact hp
      · cases hb
    · cases h

theorem annotated_bound {pre : List (List Decl)} {ds : List Decl} {post : List (List Decl)} {S : List Scheme}
    (h : infer (pre ++ ds :: post) = some S) {d : Decl} (hd : d ∈ ds) {f : Nat} {args : List Arg}
    (hm : Stmt.callFn f args ∈ d.body) {df : Decl} (hf : pre.flatten[f]? = some df) {j : Nat} {B : Prims}
    (hB : df.params[j]? = some (some B)) {a : Arg} (ha : args[j]? = some a)
    (hk : knownArg pre.flatten.length a = true) {p : Prim} (hp : ArgDoes S a p) : B.has p = true := by
  obtain ⟨done, ss, more, an, hg, rfl⟩ := inferFrom_split pre (P := [])
    ⟨rfl, fun _ h => (by cases h), fun i d s hd => by simp at hd⟩ h
  simp only [List.nil_append] at an
  have hfl : f < done.length := by rw [an.length]; exact (List.getElem?_eq_some_iff.mp hf).1
  have hs : done[f]? = some done[f] := List.getElem?_eq_getElem hfl
  have hBs := (an.params f df _ hf hs).2 j B hB
  unfold inferGroup at hg
  simp only at hg
  split at hg
  · cases hg
  rename_i rs g hi
  split at hg
  · cases hg
  rename_i T hT
  obtain ⟨w0, _, dec, len0⟩ := declGroup_spec ds Table.wf_empty
  have wf0 : (⟨(declGroup Table.empty ds).2, []⟩ : Gen).WF := ⟨w0, fun _ hc => by cases hc⟩
  obtain ⟨e, _, _, _⟩ := inferDecls_spec (S := done) (fun _ _ h => h) an.closed ds wf0 len0 dec dec hi
  obtain ⟨_, sat⟩ := solve_spec e.wf.table e.wf.cons hT
  obtain ⟨Γ, g0, x, g1, hΓ, k1, k2⟩ := inferDecls_cons an.closed hs hBs ha hm ds wf0 len0 dec dec hi hd
  have hk' : knownArg Γ.done.length a = true := by rw [hΓ, an.length]; exact hk
  obtain ⟨F, hF, hF'⟩ := inferArg_known (by rw [hΓ]; exact an.closed) hk' k1
  have hp' : ArgDoes Γ.done a p := by
    rw [hΓ]
    have low : ∀ (i : Nat) (s : Scheme), i < done.length → (done ++ (ss ++ more))[i]? = some s → done[i]? = some s := by
      intro i s hi hs
      rwa [List.getElem?_append_left hi] at hs
    rcases hp with ⟨g, s, rfl, hs, hp⟩ | ⟨body, rfl, hp⟩
    · simp only [knownArg, decide_eq_true_eq] at hk
      exact .inl ⟨g, s, rfl, low g s (by rw [an.length]; exact hk) hs, hp⟩
    · refine .inr ⟨body, rfl, ?_⟩
      rcases hp with hp | ⟨h, s, hm, hs, hp⟩
      · exact .inl hp
      · refine .inr ⟨h, s, hm, low h s ?_ hs, hp⟩
        simp only [knownArg] at hk
        have : ∀ (xs : List Stmt), plainStmts pre.flatten.length xs = true → Stmt.callFn h [] ∈ xs →
            h < pre.flatten.length := by
          intro xs
          induction xs with
          | nil => intro _ h; cases h
          | cons y xs ih =>
            intro hpl hm
            rcases List.mem_cons.mp hm with rfl | hm
            · simp only [plainStmts, Bool.and_eq_true, decide_eq_true_eq] at hpl; exact hpl.1
            · refine ih ?_ hm
              cases y with
              | native _ => simpa [plainStmts] using hpl
              | callParam _ => simp [plainStmts] at hpl
              | callFn f args =>
                cases args with
                | cons _ _ => simp [plainStmts] at hpl
                | nil => simp only [plainStmts, Bool.and_eq_true] at hpl; exact hpl.2
        rw [an.length]
        exact this body hk hm
  have hFp := hF' p hp'
  subst hF
  rcases k2 with k2 | k2
  · have : F = B := by simpa [Eff.ground] using k2
    rw [← this]; exact hFp
  · have := sat F _ k2 p hFp
    cases this with
    | here h => exact h
    | step hv _ _ => simp [Eff.ground] at hv

end Ferlium.EffInfer
