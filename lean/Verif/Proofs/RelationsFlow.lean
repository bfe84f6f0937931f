import Verif.Proofs.Relations
import Verif.Model.RelationsRun

/-
The solution a finished run leaves, the paths of the control flow graph, and the definitions the
states along them can mention.
-/

namespace Ferlium.Relations

/-- The symbols of a fact. -/
def Fact.syms : Fact → List Symbol
  | .value a => a.syms
  | .ordering l r => l.syms ++ r.syms
  | .truth p => p.difference.syms

/-- The slots whose contents the analysis may name because of an operation. -/
def Op.reads : Op → List Place
  | .load _ src | .memcpy src _ | .move src _ => [src]
  | .subfield base field => [base.field field]
  | .call c args result =>
    args.map (·.1) ++ match c with
      | .arrayLen | .arrayIndex => (args.take 1).map (fun a => a.1.field lenField)
      | .arrayResolveIndex => [result]
      | _ => []
  | _ => []

theorem placeOf_eq {f : Body} {p q : Place} (h : placeOf f p = some q) : q = p := by
  unfold placeOf at h
  split at h
  · simp only [Option.some.injEq] at h; exact h.symm
  · split at h
    · simp at h
    · simp only [Option.some.injEq] at h; exact h.symm

theorem tracked_eq {f : Body} {p q : Place} (h : tracked f p = some q) : q = p := by
  unfold tracked at h
  split at h
  · rename_i x hx
    split at h
    · simp at h
    · simp only [Option.some.injEq] at h
      subst h
      exact placeOf_eq hx
  · simp at h

/-- A stored symbol whose definition satisfies `D`, or the contents on entry of a slot satisfying
`E`. -/
def SymIn (E : Place → Prop) (D : Def → Prop) (s : Symbol) : Prop :=
  ∃ p d, s = .stored p d ∧ ((d = .entry ∧ E p) ∨ D d)

theorem SymIn.mono {E : Place → Prop} {D D' : Def → Prop} (h : ∀ d, D d → D' d) {s : Symbol}
    (hs : SymIn E D s) : SymIn E D' s := by
  obtain ⟨p, d, rfl, hd⟩ := hs
  exact ⟨p, d, rfl, hd.imp id (h d)⟩

/-- Everything a state mentions is defined within `D`. -/
structure Within (E : Place → Prop) (D : Def → Prop) (st : State) : Prop where
  cur : ∀ q s, st.current q = some s → ∃ p d, s = .stored p d ∧ D d
  key : ∀ p d f, st.facts (.stored p d) = some f → D d
  fact : ∀ s f, st.facts s = some f → ∀ x ∈ f.syms, SymIn E D x
  known : ∀ p ∈ st.known, ∀ x ∈ p.difference.syms, SymIn E D x

theorem Within.mono {E : Place → Prop} {D D' : Def → Prop} (h : ∀ d, D d → D' d) {st : State}
    (w : Within E D st) : Within E D' st where
  cur q s hs := by
    obtain ⟨p, d, e, hd⟩ := w.cur q s hs
    exact ⟨p, d, e, h d hd⟩
  key p d f hf := h d (w.key p d f hf)
  fact s f hf x hx := (w.fact s f hf x hx).mono h
  known p hp x hx := (w.known p hp x hx).mono h

theorem within_empty (E : Place → Prop) (D : Def → Prop) : Within E D .empty where
  cur q s hs := by simp [State.empty] at hs
  key p d f hf := by simp [State.empty] at hf
  fact s f hf := by simp [State.empty] at hf
  known p hp := by simp [State.empty] at hp

section
variable {rank : Symbol → Nat} {f : Body} {E : Place → Prop} {D : Def → Prop} {st : State}

theorem within_symbolOf (w : Within E D st) {p : Place} (hE : E p ∨ (st.current p).isSome) :
    SymIn E D (st.symbolOf p) := by
  unfold State.symbolOf
  cases h : st.current p with
  | none =>
    rw [h] at hE
    exact ⟨p, .entry, rfl, .inl ⟨rfl, hE.resolve_right (by simp)⟩⟩
  | some s =>
    obtain ⟨q, d, e, hd⟩ := w.cur p s h
    exact ⟨q, d, e, .inr hd⟩

theorem within_placeAffine (w : Within E D st) {p : Place} (hE : E p) :
    ∀ x ∈ (st.placeAffine p).syms, SymIn E D x := by
  intro x hx
  unfold State.placeAffine at hx
  split at hx
  · rename_i a ha
    exact w.fact _ _ ha x hx
  · simp only [Affine.syms, Affine.sym, List.map_cons, List.map_nil, List.mem_singleton] at hx
    subst hx
    exact within_symbolOf w (.inl hE)

theorem within_argumentAffine (w : Within E D st) {p : Place} (hE : E p) {a : Affine}
    (h : argumentAffine f st p = some a) : ∀ x ∈ a.syms, SymIn E D x := by
  unfold argumentAffine at h
  simp only [Option.map_eq_some_iff] at h
  obtain ⟨q, hq, rfl⟩ := h
  rw [placeOf_eq hq]
  exact within_placeAffine w hE

theorem within_argAffine (w : Within E D st) {args : List (Place × Bool)} {i : Nat} {a : Affine}
    (hE : ∀ p ∈ args.map (·.1), E p)
    (h : argAffine f st args i = some a) : ∀ x ∈ a.syms, SymIn E D x := by
  unfold argAffine at h
  split at h
  · rename_i b hb
    exact within_argumentAffine w
      (hE _ (List.mem_map.2 ⟨b, List.mem_of_getElem? hb, rfl⟩)) h
  · simp at h

theorem within_setFact (w : Within E D st) {s : Symbol} {o : Option Fact}
    (hs : (∃ p d, s = .stored p d ∧ D d) ∨ ∃ r, s = .reg r)
    (ho : ∀ g, o = some g → ∀ x ∈ g.syms, SymIn E D x) : Within E D (st.setFact s o) where
  cur := w.cur
  key p d g hg := by
    simp only [State.setFact] at hg
    split at hg
    · rename_i e
      rcases hs with ⟨p', d', e', hd⟩ | ⟨r, e'⟩
      · rw [e'] at e
        cases e
        exact hd
      · rw [e'] at e; cases e
    · exact w.key p d g hg
  fact t g hg := by
    simp only [State.setFact] at hg
    split at hg
    · exact ho g hg
    · exact w.fact t g hg
  known := w.known

theorem within_define (w : Within E D st) {p : Place} {d : Def} (hd : D d) {o : Option Fact}
    (ho : ∀ g, o = some g → ∀ x ∈ g.syms, SymIn E D x) : Within E D (st.define p d o) := by
  unfold State.define
  apply within_setFact _ (.inl ⟨p, d, rfl, hd⟩) ho
  refine ⟨?_, w.key, w.fact, w.known⟩
  intro q s hs
  simp only at hs
  split at hs
  · simp only [Option.some.injEq] at hs; subst hs; exact ⟨p, d, rfl, hd⟩
  · split at hs
    · simp at hs
    · exact w.cur q s hs

theorem mem_insertSorted {p q : Predicate} {l : List Predicate} (h : q ∈ insertSorted rank p l) :
    q = p ∨ q ∈ l := by
  induction l with
  | nil => simpa [insertSorted] using h
  | cons a l ih =>
    simp only [insertSorted] at h
    split at h
    · simpa using h
    · simp only [List.mem_cons] at h ⊢
      rcases h with h | h
      · exact .inr (.inl h)
      · exact (ih h).imp id .inr

theorem known_assume {p q : Predicate} (h : q ∈ (st.assume rank p).known) :
    q = p ∨ q ∈ st.known := by
  unfold State.assume at h
  split at h
  · exact .inr h
  · split at h
    · exact .inr h
    · exact mem_insertSorted (List.mem_of_mem_take h)

theorem current_assume (p : Predicate) : (st.assume rank p).current = st.current := by
  unfold State.assume; split
  · rfl
  · split <;> rfl

theorem facts_assume (p : Predicate) : (st.assume rank p).facts = st.facts := by
  unfold State.assume; split
  · rfl
  · split <;> rfl

theorem within_assume (w : Within E D st) {p : Predicate}
    (hp : ∀ x ∈ p.difference.syms, SymIn E D x) : Within E D (st.assume rank p) where
  cur q s hs := w.cur q s (by rw [current_assume] at hs; exact hs)
  key q d g hg := w.key q d g (by rw [facts_assume] at hg; exact hg)
  fact s g hg := w.fact s g (by rw [facts_assume] at hg; exact hg)
  known q hq := by
    rcases known_assume hq with rfl | h
    · exact hp
    · exact w.known q h

theorem within_copiedFact (w : Within E D st) {p : Place} (hE : E p ∨ (st.current p).isSome) :
    ∀ x ∈ (copiedFact st p).syms, SymIn E D x := by
  unfold copiedFact
  cases h : st.facts (st.symbolOf p) with
  | none =>
    intro x hx
    simp only [Option.getD_none, Fact.syms, Affine.syms, Affine.sym, List.map_cons, List.map_nil,
      List.mem_singleton] at hx
    subst hx
    exact within_symbolOf w hE
  | some g => exact w.fact _ g h

theorem within_copy (w : Within E D st) {src : Option Place} {dst : Place} {d : Def} (hd : D d)
    (hE : ∀ s, src = some s → E s) : Within E D (st.copy src dst d) := by
  unfold State.copy
  split
  · exact within_define w hd (by simp)
  · rename_i s
    have wb : Within E D (st.define dst d (some (copiedFact st s))) :=
      within_define w hd (by
        intro g hg; simp only [Option.some.injEq] at hg; subst hg
        exact within_copiedFact w (.inl (hE s rfl)))
    refine ⟨?_, ?_, ?_, wb.known⟩
    · intro q x hx
      simp only at hx
      split at hx
      · simp only [Option.some.injEq] at hx; subst hx; exact ⟨q, d, rfl, hd⟩
      · exact wb.cur q x hx
    · intro p e g hg
      simp only at hg
      split at hg
      · rename_i hc; exact hc.1 ▸ hd
      · exact wb.key p e g hg
    · intro x g hg
      cases x with
      | stored p e =>
        simp only at hg
        split at hg
        · rename_i hc
          simp only [Option.some.injEq] at hg; subst hg
          refine within_copiedFact w (.inr ?_)
          have := hc.2
          simp only [Bool.and_eq_true] at this
          exact this.2
        · exact wb.fact _ g hg
      | reg r => exact wb.fact (.reg r) g hg

theorem within_forgetArgs (c : Callee) {d : Def} (hd : D d) : ∀ (args : List (Place × Bool))
    {st : State}, Within E D st → Within E D (forgetArgs f c d args st) := by
  intro args
  unfold forgetArgs
  split
  · intro st w; exact w
  · induction args with
    | nil => intro st w; exact w
    | cons a args ih =>
      intro st w
      rw [List.foldl_cons]
      apply ih
      split
      · exact within_define w hd (by simp)
      · exact w

theorem within_resultFact (w : Within E D st) {c : Callee} {args : List (Place × Bool)} {g : Fact}
    (hE : ∀ p ∈ args.map (·.1), E p)
    (hL : c = .arrayLen → ∀ a ∈ args.take 1, E (a.1.field lenField))
    (h : resultFact rank f st c args = some g) : ∀ x ∈ g.syms, SymIn E D x := by
  intro x hx
  cases c <;> simp only [resultFact] at h
  case intAdd =>
    split at h
    · rename_i l r hl hr
      simp only [Option.map_eq_some_iff] at h
      obtain ⟨a, ha, rfl⟩ := h
      exact (syms_add ha hx).elim (within_argAffine w hE hl x) (within_argAffine w hE hr x)
    · simp at h
  case intSub =>
    split at h
    · rename_i l r hl hr
      simp only [Option.map_eq_some_iff] at h
      obtain ⟨a, ha, rfl⟩ := h
      exact (syms_sub ha hx).elim (within_argAffine w hE hl x) (within_argAffine w hE hr x)
    · simp at h
  case intMul =>
    split at h
    · rename_i l r hl hr
      simp only [Option.map_eq_some_iff] at h
      obtain ⟨a, ha, rfl⟩ := h
      exact (syms_mul ha hx).elim (within_argAffine w hE hl x) (within_argAffine w hE hr x)
    · simp at h
  case intNeg =>
    simp only [Option.map_eq_some_iff] at h
    obtain ⟨a, ha, rfl⟩ := h
    exact within_argAffine w hE ha x (syms_scale hx)
  case intFromInt =>
    simp only [Option.map_eq_some_iff] at h
    obtain ⟨a, ha, rfl⟩ := h
    exact within_argAffine w hE ha x hx
  case intCmp =>
    split at h
    · rename_i l r hl hr
      simp only [Option.some.injEq] at h
      subst h
      simp only [Fact.syms, List.mem_append] at hx
      exact hx.elim (within_argAffine w hE hl x) (within_argAffine w hE hr x)
    · simp at h
  case arrayLen =>
    split at h
    · rename_i b hb
      simp only [Option.map_eq_some_iff] at h
      obtain ⟨a, ha, rfl⟩ := h
      rw [tracked_eq ha] at hx
      exact within_placeAffine w (hL rfl b (by cases args <;> simp_all)) x hx
    · simp at h
  all_goals simp at h

theorem within_comparisonFact (w : Within E D st) {s : Scrutinee} {tag : String} {g : Fact}
    (h : comparisonFact rank f st s tag = some g) : ∀ x ∈ g.syms, SymIn E D x := by
  intro x hx
  unfold comparisonFact at h
  simp only at h
  split at h
  · rename_i l r hf
    have hm : ∀ y, y ∈ l.syms ∨ y ∈ r.syms → SymIn E D y := by
      intro y hy
      cases s with
      | place p =>
        simp only at hf
        split at hf
        · exact w.fact _ _ hf y (List.mem_append.2 hy)
        · simp at hf
      | reg t => exact w.fact _ _ hf y (List.mem_append.2 hy)
    split at h
    · simp only [Option.map_eq_some_iff] at h
      obtain ⟨p, hp, rfl⟩ := h
      exact hm x (syms_between hp hx)
    · split at h
      · simp only [Option.map_eq_some_iff] at h
        obtain ⟨p, hp, rfl⟩ := h
        exact hm x (syms_between hp hx).symm
      · split at h
        · simp only [Option.map_eq_some_iff] at h
          obtain ⟨p, hp, rfl⟩ := h
          exact hm x (syms_between hp hx)
        · simp at h
  · simp at h

/-- An operation only mentions what the state mentioned, and its own definitions. -/
theorem within_transfer (w : Within E D st) {op : Op} {d : Def} (hd : D d)
    (hE : ∀ p ∈ op.reads, E p) :
    Within E D (transfer rank f op d st) := by
  cases op with
  | alloca id =>
    simp only [transfer]
    split
    · exact w
    · exact within_define w hd (by simp)
  | storeConst v dst =>
    simp only [transfer]
    split
    · exact within_define w hd (by
        intro g hg; simp only [Option.some.injEq] at hg; subst hg
        simp [Fact.syms, Affine.syms, Affine.const])
    · exact w
  | storeReg r dst =>
    simp only [transfer]
    split
    · exact within_define w hd (fun g hg => w.fact _ g hg)
    · exact w
  | buildArray n dst =>
    simp only [transfer]
    split
    · exact within_define (within_define w hd (by simp)) hd (by
        intro g hg; simp only [Option.some.injEq] at hg; subst hg
        simp [Fact.syms, Affine.syms, Affine.const])
    · exact w
  | load r src =>
    simp only [transfer]
    apply within_setFact w (.inr ⟨r, rfl⟩)
    intro g hg x hx
    simp only [Option.map_eq_some_iff] at hg
    obtain ⟨p, hp, rfl⟩ := hg
    have hp := tracked_eq hp
    subst hp
    cases h : st.facts (st.symbolOf p) with
    | none => rw [h] at hx; exact within_placeAffine w (hE p (by simp [Op.reads])) x hx
    | some g => rw [h] at hx; exact w.fact _ g h x hx
  | subfield base field =>
    simp only [transfer]
    split
    · rename_i p hp
      have hp := tracked_eq hp
      subst hp
      split
      · split
        · rename_i pred hp
          apply within_assume w
          intro x hx
          rcases syms_between hp hx with h | h
          · simp [Affine.syms, Affine.const] at h
          · exact within_placeAffine w (hE _ (by simp [Op.reads])) x h
        · exact w
      · exact w
    · exact w
  | memcpy src dst =>
    simp only [transfer]
    split
    · exact within_copy w hd (fun s hs => hE s (by simp [Op.reads, tracked_eq hs]))
    · exact w
  | move src dst =>
    simp only [transfer]
    have w' : Within E D (match tracked f dst with
      | some q => st.copy (tracked f src) q d
      | none => st) := by
      split
      · exact within_copy w hd (fun s hs => hE s (by simp [Op.reads, tracked_eq hs]))
      · exact w
    split
    · exact within_define w' hd (by simp)
    · exact w'
  | drop p =>
    simp only [transfer]
    split
    · exact within_define w hd (by simp)
    · exact w
  | extractTag r src =>
    simp only [transfer]
    apply within_setFact w (.inr ⟨r, rfl⟩)
    intro g hg
    split at hg
    · split at hg
      · rename_i h
        simp only [Option.some.injEq] at hg; subst hg
        exact w.fact _ _ h
      · simp at hg
    · simp at hg
  | compEq r s tag =>
    simp only [transfer]
    exact within_setFact w (.inr ⟨r, rfl⟩) (fun g hg => within_comparisonFact w hg)
  | call c args result =>
    simp only [transfer]
    have hargs : ∀ p ∈ args.map (·.1), E p :=
      fun p hp => hE p (List.mem_append_left _ hp)
    have hlen : c = .arrayLen → ∀ a ∈ args.take 1, E (a.1.field lenField) := by
      rintro rfl a ha
      exact hE _ (List.mem_append_right _ (List.mem_map.2 ⟨a, ha, rfl⟩))
    have w' := within_forgetArgs (f := f) c hd args w
    split
    · exact within_define w' hd (fun g hg => within_resultFact w' hargs hlen hg)
    · exact w'
  | clone src dst =>
    simp only [transfer]
    split
    · exact within_define w hd (by simp)
    · exact w

theorem within_assumed (w : Within E D st) {t : Term} {target : Nat} {p : Predicate}
    (hE : ∀ op n e, t = .invoke op n e → ∀ q ∈ op.reads, E q)
    (h : p ∈ assumed rank f t target st) : ∀ x ∈ p.difference.syms, SymIn E D x := by
  intro x hx
  unfold assumed at h
  split at h
  · split at h
    · simp at h
    · split at h
      · rename_i q hq
        split at h
        · simp only [List.mem_singleton] at h; subst h; exact w.fact _ _ hq x hx
        · simp only [List.mem_singleton] at h; subst h
          exact w.fact _ _ hq x (syms_negated hx)
      · simp at h
  · split at h
    · split at h
      · unfold resolvedIndexBounds at h
        have hE := hE _ _ _ rfl
        have hargs := fun p hp => hE p (List.mem_append_left _ hp)
        split at h
        · rename_i index len hi hl
          split at h
          · simp only at h
            split at h
            · rename_i o ho
              have hsym : ∀ y ∈ o.syms, SymIn E D y := by
                split at ho
                · simp only [Option.some.injEq] at ho; subst ho
                  exact within_argAffine w hargs hi
                · simp only [Option.map_eq_some_iff] at ho
                  obtain ⟨q, hq, rfl⟩ := ho
                  rw [tracked_eq hq]
                  exact within_placeAffine w (hE _ (by simp [Op.reads]))
              split at h
              · rename_i a b ha hb
                simp only [List.mem_cons, List.not_mem_nil, or_false] at h
                rcases h with rfl | rfl
                · rcases syms_between ha hx with hx | hx
                  · simp [Affine.syms, Affine.const] at hx
                  · exact hsym x hx
                · exact (syms_between hb hx).elim (hsym x) (within_argAffine w hargs hl x)
              · simp at h
            · simp at h
          · simp at h
        · simp at h
      · unfold checkedArrayIndexBounds at h
        have hE := hE _ _ _ rfl
        split at h
        · rename_i index len hf
          have hs : (∀ y ∈ index.syms, SymIn E D y) ∧ (∀ y ∈ len.syms, SymIn E D y) := by
            unfold arrayIndexForms at hf
            split at hf
            · split at hf
              · rename_i q hq
                split at hf
                · simp only [Option.map_eq_some_iff, Prod.mk.injEq] at hf
                  obtain ⟨y, hy, rfl, rfl⟩ := hf
                  rw [tracked_eq hq]
                  exact ⟨within_argumentAffine w (hE _ (by simp [Op.reads])) hy,
                    within_placeAffine w (hE _ (by simp [Op.reads]))⟩
                · simp at hf
              · simp at hf
            · simp at hf
          split at h
          · rename_i nonneg hn
            split at h
            · split at h
              · rename_i b hb
                simp only [List.mem_cons, List.not_mem_nil, or_false] at h
                rcases h with rfl | rfl
                · rcases syms_between hn hx with hx | hx
                  · simp [Affine.syms, Affine.const] at hx
                  · exact hs.1 x hx
                · exact (syms_between hb hx).elim (hs.1 x) (hs.2 x)
              · simp at h
            · simp at h
          · simp at h
        · simp at h
      · simp at h
    · simp at h
  · simp at h

theorem current_foldl_assume : ∀ (ps : List Predicate) (st : State),
    (ps.foldl (fun st p => st.assume rank p) st).current = st.current := by
  intro ps
  induction ps with
  | nil => intro st; rfl
  | cons p ps ih => intro st; rw [List.foldl_cons, ih, current_assume]

theorem facts_foldl_assume : ∀ (ps : List Predicate) (st : State),
    (ps.foldl (fun st p => st.assume rank p) st).facts = st.facts := by
  intro ps
  induction ps with
  | nil => intro st; rfl
  | cons p ps ih => intro st; rw [List.foldl_cons, ih, facts_assume]

theorem known_foldl_assume : ∀ (ps : List Predicate) (st : State) (q : Predicate),
    q ∈ (ps.foldl (fun st p => st.assume rank p) st).known → q ∈ ps ∨ q ∈ st.known := by
  intro ps
  induction ps with
  | nil => intro st q h; exact .inr h
  | cons p ps ih =>
    intro st q h
    rw [List.foldl_cons] at h
    rcases ih _ q h with h | h
    · exact .inl (List.mem_cons_of_mem p h)
    · rcases known_assume h with rfl | h
      · exact .inl List.mem_cons_self
      · exact .inr h

theorem within_refine (w : Within E D st) (t : Term) (target : Nat)
    (hE : ∀ op n e, t = .invoke op n e → ∀ q ∈ op.reads, E q) :
    Within E D (refine rank f t target st) := by
  unfold refine
  refine ⟨?_, ?_, ?_, ?_⟩
  · rw [current_foldl_assume]; exact w.cur
  · rw [facts_foldl_assume]; exact w.key
  · rw [facts_foldl_assume]; exact w.fact
  · intro p hp
    rcases known_foldl_assume _ _ p hp with h | h
    · exact within_assumed w hE h
    · exact w.known p h

/-! ### Joins -/

/-- What the entry state of `b` keeps of the state on one of its edges. -/
structure JoinOf (b : Nat) (edge e : State) : Prop where
  cur : ∀ p, e.current p = edge.current p ∨ e.current p = some (.stored p (.join b))
  fact : ∀ s g, e.facts s = some g → edge.facts s = some g
  known : ∀ p ∈ e.known, p ∈ edge.known

theorem JoinOf.refl (b : Nat) (st : State) : JoinOf b st st :=
  ⟨fun _ => .inl rfl, fun _ _ h => h, fun _ h => h⟩

theorem joinOf_left (b : Nat) {edge e i : State} (h : JoinOf b edge e) :
    JoinOf b edge (rejoin b e i) where
  cur p := by
    simp only [rejoin]
    split
    · exact h.cur p
    · exact .inr rfl
  fact s g hg := by
    simp only [rejoin] at hg
    split at hg
    · exact h.fact s g hg
    · simp at hg
  known p hp := h.known p (List.mem_of_mem_filter hp)

theorem joinOf_right (b : Nat) (e i : State) : JoinOf b i (rejoin b e i) where
  cur p := by
    simp only [rejoin]
    split
    · rename_i h; exact .inl h
    · exact .inr rfl
  fact s g hg := by
    simp only [rejoin] at hg
    split at hg
    · rename_i h; rw [← h]; exact hg
    · simp at hg
  known p hp := by
    simp only [rejoin, List.mem_filter, decide_eq_true_eq] at hp
    exact hp.2

theorem mem_preds {a b : Nat} {blk : Block} (hb : f.blocks[a]? = some blk)
    (hs : b ∈ blk.term.succs) : a ∈ f.preds b := by
  unfold Body.preds
  rw [List.mem_flatMap]
  refine ⟨a, List.mem_range.2 (List.getElem?_eq_some_iff.1 hb).1, ?_⟩
  rw [hb]
  simp only [List.mem_map, List.mem_filter, decide_eq_true_eq]
  exact ⟨b, ⟨hs, rfl⟩, trivial⟩

theorem preds_mem {a b : Nat} (h : a ∈ f.preds b) :
    ∃ blk, f.blocks[a]? = some blk ∧ b ∈ blk.term.succs := by
  unfold Body.preds at h
  rw [List.mem_flatMap] at h
  obtain ⟨a', _, h⟩ := h
  split at h
  · rename_i blk hb
    simp only [List.mem_map, List.mem_filter, decide_eq_true_eq] at h
    obtain ⟨x, ⟨hx, rfl⟩, rfl⟩ := h
    exact ⟨blk, hb, hx⟩
  · simp at h

/-- One round of the loop over the predecessors. -/
def joinStep (rank : Symbol → Nat) (f : Body) (exits : Nat → Option State) (b : Nat)
    (acc : Option State) (a : Nat) : Option State :=
  match exits a, f.blocks[a]? with
  | some st, some blk =>
    let edge := refine rank f blk.term b st
    match acc with
    | some e => some (rejoin b e edge)
    | none => some edge
  | _, _ => acc

theorem joinEntry_eq (exits : Nat → Option State) {b : Nat} (hb : b ≠ 0) :
    joinEntry rank f exits b = (f.preds b).foldl (joinStep rank f exits b) none := by
  unfold joinEntry
  rw [if_neg hb]
  rfl

theorem foldl_keep {exits : Nat → Option State} {b : Nat} {edge : State} : ∀ (as : List Nat)
    {acc : State}, JoinOf b edge acc →
    ∃ e, as.foldl (joinStep rank f exits b) (some acc) = some e ∧ JoinOf b edge e := by
  intro as
  induction as with
  | nil => intro acc h; exact ⟨acc, rfl, h⟩
  | cons a as ih =>
    intro acc h
    rw [List.foldl_cons]
    unfold joinStep
    split
    · exact ih (joinOf_left b h)
    · exact ih h

theorem foldl_join {exits : Nat → Option State} {b a : Nat} {st : State} {blk : Block}
    (hst : exits a = some st) (hblk : f.blocks[a]? = some blk) : ∀ (as : List Nat)
    (acc : Option State), a ∈ as →
    ∃ e, as.foldl (joinStep rank f exits b) acc = some e ∧
      JoinOf b (refine rank f blk.term b st) e := by
  intro as
  induction as with
  | nil => intro acc h; simp at h
  | cons x as ih =>
    intro acc h
    rw [List.foldl_cons]
    rcases List.mem_cons.1 h with rfl | h
    · have : ∃ e, joinStep rank f exits b acc a = some e ∧
          JoinOf b (refine rank f blk.term b st) e := by
        unfold joinStep
        rw [hst, hblk]
        cases acc with
        | none => exact ⟨_, rfl, JoinOf.refl b _⟩
        | some e => exact ⟨_, rfl, joinOf_right b e _⟩
      obtain ⟨e, he, hj⟩ := this
      rw [he]
      exact foldl_keep as hj
    · exact ih _ h

theorem foldl_congr_exits {exits exits' : Nat → Option State} {b : Nat} : ∀ (as : List Nat)
    (acc : Option State), (∀ a ∈ as, exits a = exits' a) →
    as.foldl (joinStep rank f exits b) acc = as.foldl (joinStep rank f exits' b) acc := by
  intro as
  induction as with
  | nil => intro acc _; rfl
  | cons a as ih =>
    intro acc h
    rw [List.foldl_cons, List.foldl_cons]
    have : joinStep rank f exits b acc a = joinStep rank f exits' b acc a := by
      unfold joinStep; rw [h a List.mem_cons_self]
    rw [this]
    exact ih _ (fun x hx => h x (List.mem_cons_of_mem a hx))

theorem joinEntry_congr {exits exits' : Nat → Option State} {b : Nat}
    (h : ∀ a ∈ f.preds b, exits a = exits' a) :
    joinEntry rank f exits b = joinEntry rank f exits' b := by
  by_cases hb : b = 0
  · unfold joinEntry; rw [if_pos hb, if_pos hb]
  · rw [joinEntry_eq _ hb, joinEntry_eq _ hb]
    exact foldl_congr_exits _ _ h

/-! ### The solution -/

/-- The equations a finished run satisfies. -/
def Solves (rank : Symbol → Nat) (f : Body) (r : Run) : Prop :=
  ∀ b e, joinEntry rank f r.exits b = some e →
    r.entries b = some e ∧ r.exits b = some (exitState rank f b e)

theorem runs_solves {r : Run} (h : Runs rank f r) :
    (∀ b, ¬r.queued b → ∀ e, joinEntry rank f r.exits b = some e →
      r.entries b = some e ∧ r.exits b = some (exitState rank f b e)) ∧
    (∀ b e, r.entries b = some e → r.exits b = some (exitState rank f b e)) := by
  induction h with
  | start =>
    refine ⟨?_, by simp [Run.start]⟩
    intro b hb e he
    exfalso
    have hb' : b ≠ 0 := hb
    rw [joinEntry_eq _ hb'] at he
    have : ∀ as : List Nat, as.foldl (joinStep rank f (fun _ => none) b) none = none := by
      intro as
      induction as with
      | nil => rfl
      | cons a as ih => rw [List.foldl_cons]; unfold joinStep; exact ih
    rw [show (Run.start).exits = fun _ => none from rfl, this] at he
    simp at he
  | @step r r' _ s ih =>
    obtain ⟨ih1, ih2⟩ := ih
    cases s with
    | @unreached b hq he =>
      refine ⟨?_, ih2⟩
      intro x hx e hxe
      by_cases hxb : x = b
      · subst hxb
        simp only at hxe
        rw [he] at hxe; simp at hxe
      · exact ih1 x (fun h => hx ⟨h, hxb⟩) e hxe
    | @unchanged b e hq he hold hx =>
      refine ⟨?_, ih2⟩
      intro x hxq e' hxe
      by_cases hxb : x = b
      · subst hxb
        simp only at hxe
        rw [he] at hxe
        simp only [Option.some.injEq] at hxe; subst hxe
        exact ⟨hold, ih2 x e hold⟩
      · exact ih1 x (fun h => hxq ⟨h, hxb⟩) e' hxe
    | @sameExit b e hq he hnew hx =>
      refine ⟨?_, ?_⟩
      · intro x hxq e' hxe
        by_cases hxb : x = b
        · subst hxb
          simp only at hxe
          rw [he] at hxe
          simp only [Option.some.injEq] at hxe; subst hxe
          simp [hx]
        · have := ih1 x (fun h => hxq ⟨h, hxb⟩) e' hxe
          simpa [hxb] using this
      · intro x e' hxe
        simp only at hxe
        split at hxe
        · rename_i hxb; subst hxb
          simp only [Option.some.injEq] at hxe; subst hxe
          exact hx
        · exact ih2 x e' hxe
    | @newExit b e hq he hnew hx =>
      refine ⟨?_, ?_⟩
      · intro x hxq e' hxe
        simp only [not_or] at hxq
        obtain ⟨hxq, hns⟩ := hxq
        have hnp : ∀ a ∈ f.preds x,
            (if a = b then some (exitState rank f b e) else r.exits a) = r.exits a := by
          intro a ha
          split
          · rename_i hab; subst hab
            obtain ⟨blk, hblk, hsx⟩ := preds_mem ha
            exact absurd ⟨blk, hblk, hsx⟩ hns
          · rfl
        simp only at hxe
        rw [joinEntry_congr hnp] at hxe
        by_cases hxb : x = b
        · subst hxb
          rw [he] at hxe
          simp only [Option.some.injEq] at hxe; subst hxe
          simp
        · have := ih1 x (fun h => hxq ⟨h, hxb⟩) e' hxe
          simpa [hxb] using this
      · intro x e' hxe
        simp only at hxe ⊢
        split at hxe
        · rename_i hxb; subst hxb
          simp only [Option.some.injEq] at hxe; subst hxe
          simp
        · rename_i hxb
          rw [if_neg hxb]
          exact ih2 x e' hxe

theorem finished_solves {r : Run} (h : Finished rank f r) : Solves rank f r := by
  intro b e he
  exact (runs_solves h.1).1 b (h.2 b) e he

/-! ### Paths and freshness -/

/-- A path of the control flow graph to a point, with the definitions met on the way. -/
inductive Path (f : Body) : List Def → Nat → Nat → Prop
  | start : Path f [] 0 0
  | op {H b i blk} (h : Path f H b i) (hb : f.blocks[b]? = some blk) (hi : i < blk.allOps.length) :
      Path f (.op b i :: H) b (i + 1)
  | edge {H b blk t} (h : Path f H b blk.allOps.length) (hb : f.blocks[b]? = some blk)
      (ht : t ∈ blk.term.succs) : Path f (.join t :: H) t 0

theorem transferOps_append {b : Nat} : ∀ (xs ys : List Op) (i : Nat) (st : State),
    transferOps rank f b i (xs ++ ys) st =
      transferOps rank f b (i + xs.length) ys (transferOps rank f b i xs st) := by
  intro xs
  induction xs with
  | nil => intro ys i st; simp [transferOps]
  | cons x xs ih =>
    intro ys i st
    simp only [List.cons_append, transferOps, ih, List.length_cons]
    congr 1
    omega

theorem pointState_succ {r : Run} {b i : Nat} {blk : Block} {op : Op} {st : State}
    (hb : f.blocks[b]? = some blk) (ho : blk.allOps[i]? = some op)
    (h : pointState rank f r b i = some st) :
    pointState rank f r b (i + 1) = some (transfer rank f op (.op b i) st) := by
  unfold pointState at h ⊢
  rw [hb] at h ⊢
  cases he : r.entries b with
  | none => rw [he] at h; simp at h
  | some e =>
    rw [he] at h
    simp only [Option.some.injEq] at h ⊢
    have hi : i < blk.allOps.length := (List.getElem?_eq_some_iff.1 ho).1
    have ht : blk.allOps.take (i + 1) = blk.allOps.take i ++ [op] := by
      rw [List.take_add_one, ho]; rfl
    rw [ht, transferOps_append, h]
    simp [transferOps, List.length_take, Nat.min_eq_left (Nat.le_of_lt hi)]

theorem pointState_exit {r : Run} {b : Nat} {blk : Block} {st : State}
    (hr : Solves rank f r) (hj : ∃ e, joinEntry rank f r.exits b = some e)
    (hb : f.blocks[b]? = some blk)
    (h : pointState rank f r b blk.allOps.length = some st) : r.exits b = some st := by
  obtain ⟨e, he⟩ := hj
  obtain ⟨h1, h2⟩ := hr b e he
  unfold pointState at h
  rw [h1, hb] at h
  simp only [List.take_length, Option.some.injEq] at h
  rw [h2]
  unfold exitState
  rw [hb]
  simp [h]

/-- Every slot the operations of the body read satisfies `E`. -/
def Settled (E : Place → Prop) (f : Body) : Prop :=
  ∀ (b : Nat) (blk : Block) (op : Op), f.blocks[b]? = some blk → op ∈ blk.allOps →
    ∀ p ∈ op.reads, E p

theorem settled_true (f : Body) : Settled (fun _ => True) f := fun _ _ _ _ _ _ _ => trivial

theorem settled_term (hE : Settled E f) {b : Nat} {blk : Block} (hb : f.blocks[b]? = some blk) :
    ∀ op n e, blk.term = .invoke op n e → ∀ q ∈ op.reads, E q := by
  intro op n e ht
  exact hE b blk op hb (by simp [Block.allOps, ht])

/-- Along a path every point has a state, which mentions only what the path has defined. -/
theorem path_within {r : Run} (hr : Solves rank f r) (hE : Settled E f) {H : List Def} {b i : Nat}
    (hp : Path f H b i) (hv : b < f.blocks.length) :
    (∃ e, joinEntry rank f r.exits b = some e) ∧
      ∃ st, pointState rank f r b i = some st ∧ Within E (fun d => d ∈ H) st := by
  induction hp with
  | start =>
    have he : joinEntry rank f r.exits 0 = some .empty := by simp [joinEntry]
    refine ⟨⟨_, he⟩, .empty, ?_, within_empty _ _⟩
    unfold pointState
    rw [(hr 0 _ he).1, List.getElem?_eq_getElem hv]
    simp [transferOps]
  | @op H b i blk hp hb hi ih =>
    obtain ⟨hj, st, hst, w⟩ := ih hv
    have ho : blk.allOps[i]? = some blk.allOps[i] := List.getElem?_eq_getElem hi
    refine ⟨hj, _, pointState_succ hb ho hst, ?_⟩
    exact within_transfer (w.mono (fun d hd => List.mem_cons_of_mem _ hd)) List.mem_cons_self
      (hE b blk _ hb (List.getElem_mem hi))
  | @edge H b blk t hp hb ht ih =>
    have hvb : b < f.blocks.length := (List.getElem?_eq_some_iff.1 hb).1
    obtain ⟨hj, st, hst, w⟩ := ih hvb
    have hexit := pointState_exit hr hj hb hst
    by_cases ht0 : t = 0
    · subst ht0
      have he : joinEntry rank f r.exits 0 = some .empty := by simp [joinEntry]
      refine ⟨⟨_, he⟩, .empty, ?_, within_empty _ _⟩
      unfold pointState
      rw [(hr 0 _ he).1, List.getElem?_eq_getElem hv]
      simp [transferOps]
    · obtain ⟨e, he, hjo⟩ := foldl_join (rank := rank) (f := f) (b := t) hexit hb (f.preds t) none
        (mem_preds hb ht)
      rw [← joinEntry_eq _ ht0] at he
      refine ⟨⟨e, he⟩, e, ?_, ?_⟩
      · unfold pointState
        rw [(hr t _ he).1, List.getElem?_eq_getElem hv]
        simp [transferOps]
      · have wr := within_refine (rank := rank) (f := f) w blk.term t (settled_term hE hb)
        have wm := wr.mono (D' := fun d => d ∈ Def.join t :: H)
          (fun d hd => List.mem_cons_of_mem _ hd)
        refine ⟨?_, ?_, ?_, ?_⟩
        · intro q s hs
          rcases hjo.cur q with h | h
          · exact wm.cur q s (h ▸ hs)
          · rw [h] at hs
            simp only [Option.some.injEq] at hs; subst hs
            exact ⟨q, .join t, rfl, List.mem_cons_self⟩
        · intro p d g hg
          exact wm.key p d g (hjo.fact _ g hg)
        · intro s g hg
          exact wm.fact s g (hjo.fact s g hg)
        · intro p hpk
          exact wm.known p (hjo.known p hpk)

theorem first_op {H : List Def} {b' i' b i : Nat} (hp : Path f H b' i') (h : Def.op b i ∈ H) :
    ∃ H', Path f H' b i ∧ Def.op b i ∉ H' := by
  induction hp with
  | start => simp at h
  | @op H c j blk hp hb hi ih =>
    by_cases hin : Def.op b i ∈ H
    · exact ih hin
    · rcases List.mem_cons.1 h with h | h
      · simp only [Def.op.injEq] at h
        obtain ⟨rfl, rfl⟩ := h
        exact ⟨H, hp, hin⟩
      · exact absurd h hin
  | @edge H c blk t hp hb ht ih =>
    rcases List.mem_cons.1 h with h | h
    · simp at h
    · exact ih h

theorem first_edge {H : List Def} {b' i' t : Nat} (hp : Path f H b' i') (h : Def.join t ∈ H) :
    ∃ H' b blk, Path f H' b blk.allOps.length ∧ f.blocks[b]? = some blk ∧
      t ∈ blk.term.succs ∧ Def.join t ∉ H' := by
  induction hp with
  | start => simp at h
  | @op H c j blk hp hb hi ih =>
    rcases List.mem_cons.1 h with h | h
    · simp at h
    · exact ih h
  | @edge H c blk t' hp hb ht ih =>
    by_cases hin : Def.join t ∈ H
    · exact ih hin
    · rcases List.mem_cons.1 h with h | h
      · simp only [Def.join.injEq] at h
        subst h
        exact ⟨H, c, blk, hp, hb, ht, hin⟩
      · exact absurd h hin

/-- The state at a point never mentions the definitions of the operation there. -/
theorem fresh_op {r : Run} (hr : Solves rank f r) (hE : Settled E f) {H : List Def} {b i : Nat} {st : State}
    (hp : Path f H b i) (hv : b < f.blocks.length) (hst : pointState rank f r b i = some st) :
    Within E (fun d => d ≠ .op b i) st := by
  have key : ∃ H', Path f H' b i ∧ Def.op b i ∉ H' := by
    by_cases h : Def.op b i ∈ H
    · exact first_op hp h
    · exact ⟨H, hp, h⟩
  obtain ⟨H', hp', hn⟩ := key
  obtain ⟨_, st', hst', w⟩ := path_within hr hE hp' hv
  rw [hst] at hst'
  simp only [Option.some.injEq] at hst'
  subst hst'
  exact w.mono (fun d hd (e : d = .op b i) => hn (e ▸ hd))

/-- The entry state of a block mentions its own join definitions only as current symbols. -/
theorem fresh_join {r : Run} (hr : Solves rank f r) (hE : Settled E f) {H : List Def} {b t : Nat} {blk : Block}
    {e : State} (hp : Path f H b blk.allOps.length) (hb : f.blocks[b]? = some blk)
    (ht : t ∈ blk.term.succs) (ht0 : t ≠ 0) (he : joinEntry rank f r.exits t = some e) :
    ∃ edge, JoinOf t edge e ∧ Within E (fun d => d ≠ .join t) edge := by
  have key : ∃ H' c blk', Path f H' c blk'.allOps.length ∧ f.blocks[c]? = some blk' ∧
      t ∈ blk'.term.succs ∧ Def.join t ∉ H' := by
    by_cases h : Def.join t ∈ H
    · exact first_edge hp h
    · exact ⟨H, b, blk, hp, hb, ht, h⟩
  obtain ⟨H', c, blk', hp', hb', ht', hn⟩ := key
  have hvc : c < f.blocks.length := (List.getElem?_eq_some_iff.1 hb').1
  obtain ⟨hj, st, hst, w⟩ := path_within hr hE hp' hvc
  have hexit := pointState_exit hr hj hb' hst
  obtain ⟨e', he', hjo⟩ := foldl_join (rank := rank) (f := f) (b := t) hexit hb' (f.preds t) none
    (mem_preds hb' ht')
  rw [← joinEntry_eq _ ht0, he] at he'
  simp only [Option.some.injEq] at he'
  subst he'
  exact ⟨_, hjo, (within_refine w blk'.term t (settled_term hE hb')).mono (fun d hd (e : d = .join t) => hn (e ▸ hd))⟩

end

end Ferlium.Relations
