import Verif.Proofs.TailShort
import Verif.Proofs.EditOrder

/-! Merging equal blocks preserves behaviour. -/
namespace Ferlium.TailMerge

open Ferlium.Mir

variable {V σ : Type} {W : World V σ} {f g : Body} {s s' : St V σ} {w : σ}

/-- The block uses the register. -/
def Mentions (b : Block) (r : Nat) : Prop :=
  (∃ op ∈ b.ops, Value.register r ∈ op.operands) ∨ Value.register r ∈ b.term.operands

/-- Operands which agree or are results of their blocks. -/
def AlikeValue (b b' : Block) (v v' : Value) : Prop :=
  v = v' ∨ ∃ r r', v = .register r ∧ v' = .register r' ∧ r ∈ b.results ∧ r' ∈ b'.results

/-- Operations of the same kind with such operands. -/
structure AlikeOp (b b' : Block) (op op' : Op) : Prop where
  kind : op.kind = op'.kind
  result : op.result.isSome = op'.result.isSome
  operands : List.Forall₂ (AlikeValue b b') op.operands op'.operands

/-- Ends of the same kind with such operands, wherever they go. -/
inductive AlikeEnd (b b' : Block) : Term → Term → Prop
  | goto x x' : AlikeEnd b b' (.goto x) (.goto x')
  | condBr {c c'} x y x' y' : AlikeValue b b' c c' → AlikeEnd b b' (.condBr c x y) (.condBr c' x' y')
  | yield {v v'} x x' : AlikeValue b b' v v' → AlikeEnd b b' (.yield v x) (.yield v' x')
  | ret : AlikeEnd b b' .ret .ret
  | propagateError : AlikeEnd b b' .propagateError .propagateError
  | cleanupFailure : AlikeEnd b b' .cleanupFailure .cleanupFailure

/-- The blocks do the same, up to the names of the registers they define and to the blocks which follow. -/
structure Alike (b b' : Block) : Prop where
  ops : List.Forall₂ (AlikeOp b b') b.ops b'.ops
  term : AlikeEnd b b' b.term b'.term

/-- What the merge relies on: registers defined in two blocks which perform the same operations are not used
elsewhere, a block uses its own results only after their definition, and stores have no result. -/
structure Separate (f : Body) : Prop where
  twins : ∀ (x y : Nat) (bx bz : Block), f[x]? = some bx → f[y]? = some bz → x ≠ y → Alike bx bz → ∀ r ∈ bx.results,
    ∀ (z : Nat) (b : Block), f[z]? = some b → z ≠ x → ¬ Mentions b r
  before : ∀ b ∈ f, ∀ pre op post, b.ops = pre ++ op :: post → ∀ r, Value.register r ∈ op.operands →
    ∀ op' ∈ op :: post, op'.result ≠ some r
  noResult : ∀ b ∈ f, ∀ op ∈ b.ops, op.kind = .store → op.result = none

theorem AlikeValue.symm {b b' : Block} {v v' : Value} (h : AlikeValue b b' v v') : AlikeValue b' b v' v := by
  rcases h with h | ⟨r, r', h1, h2, h3, h4⟩
  · exact Or.inl h.symm
  · exact Or.inr ⟨r', r, h2, h1, h4, h3⟩

theorem AlikeEnd.symm {b b' : Block} {t t' : Term} (h : AlikeEnd b b' t t') : AlikeEnd b' b t' t := by
  cases h with
  | goto => exact .goto _ _
  | condBr _ _ _ _ h => exact .condBr _ _ _ _ h.symm
  | yield _ _ h => exact .yield _ _ h.symm
  | ret => exact .ret
  | propagateError => exact .propagateError
  | cleanupFailure => exact .cleanupFailure

theorem Alike.symm {b b' : Block} (h : Alike b b') : Alike b' b := by
  refine ⟨List.Forall₂.flip (h.ops.imp ?_), h.term.symm⟩
  rintro op op' ⟨h1, h2, h3⟩
  exact ⟨h1.symm, h2.symm, List.Forall₂.flip (h3.imp fun _ _ h => h.symm)⟩

/-- The registers on which the two executions may disagree outside the blocks which define them. -/
def Dup (f : Body) (r : Nat) : Prop :=
  ∃ (x y : Nat) (bx bz : Block), f[x]? = some bx ∧ f[y]? = some bz ∧ x ≠ y ∧ Alike bx bz ∧ r ∈ bx.results

/-- Corresponding terminators: the second one has canonical targets. -/
inductive TermRel (m : Nat → Nat) (M : Corr) : Term → Term → Prop
  | goto x : TermRel m M (.goto x) (.goto (m x))
  | condBr {c c'} x y : ValRel M c c' → TermRel m M (.condBr c x y) (.condBr c' (m x) (m y))
  | invoke {op} x y : OpRel M op op → op.result = none → TermRel m M (.invoke op x y) (.invoke op (m x) (m y))
  | yield {v v'} x : ValRel M v v' → TermRel m M (.yield v x) (.yield v' (m x))
  | ret : TermRel m M .ret .ret
  | propagateError : TermRel m M .propagateError .propagateError
  | cleanupFailure : TermRel m M .cleanupFailure .cleanupFailure

/-- Corresponding code. -/
inductive Match (D : Nat → Prop) (m : Nat → Nat) (t t' : Term) : Corr → List Op → List Op → Prop
  | nil {M} : TermRel m M t t' → (∀ a, ¬ D a → M.rel a a) → Match D m t t' M [] []
  | cons {M op op' ops ops'} : OpRel M op op' → (op.kind = .store → op.result = none) →
      Match D m t t' (M.bind op.result op'.result) ops ops' → Match D m t t' M (op :: ops) (op' :: ops')

/-- The relation between the executions. -/
inductive MRel (f : Body) (m : Nat → Nat) : Config V σ → Config V σ → Prop
  | done x : MRel f m (.done x) (.done x)
  | code {M ops ops' t t' s s'} : Ren M s s' → Match (Dup f) m t t' M ops ops' →
      MRel f m (.at ops t s) (.at ops' t' s')

/-- The canonical version of a body without the collapsed branches. -/
def canonBody (m : Nat → Nat) (f : Body) : Body := f.map fun b => { b with term := mapTargets m b.term }

/-- Every block matches its canonical version. -/
def Sound (f : Body) (m : Nat → Nat) : Prop :=
  ∀ (x : Nat) (b : Block), f[x]? = some b → ∃ b', f[m x]? = some b' ∧
    Match (Dup f) m b.term (mapTargets m b'.term) (Corr.off (Dup f)) b.ops b'.ops

theorem mrel_enter {m : Nat → Nat} (hm : Sound f m) {x : Nat} (hx : x < f.length) (h : Off (Dup f) s s') :
    MRel f m (enter f x s) (enter (canonBody m f) (m x) s') := by
  have hb := List.getElem?_eq_getElem hx
  obtain ⟨b', h1, h2⟩ := hm x _ hb
  unfold enter canonBody
  rw [List.getElem?_map, h1, hb]
  exact .code h h2

theorem ren_off {D : Nat → Prop} {M : Corr} (h : Ren M s s') (hM : ∀ a, ¬ D a → M.rel a a) : Off D s s' :=
  ⟨h.world, by rintro r _ ⟨rfl, hr⟩; exact h.env r r (hM r hr)⟩

theorem mrel_step {m : Nat → Nat} (hm : Sound f m) {c c' : Config V σ} (h : MRel f m c c')
    (hc : ∀ ops t s, c = .at ops t s → ∀ x ∈ t.successors, x < f.length) :
    MRel f m (step W f c) (step W (canonBody m f) c') := by
  cases h with
  | done x => exact .done x
  | @code M ops ops' t t' s s' hren hmatch =>
    have hlt := hc _ _ _ rfl
    cases hmatch with
    | @cons M op op' ops ops' ho hst hrest =>
      simp only [step]
      have := ren_execOp (W := W) (direct := op.direct) hren ho hst
      rw [← ho.direct]
      revert this
      generalize execOp W op.direct op s = e1
      generalize execOp W op.direct op' s' = e2
      intro h1
      cases h1 with
      | ok h1 => exact .code h1 hrest
      | error h1 => simp only [h1.world]; exact .done _
      | halt w => exact .done _
      | stuck => exact .done _
    | nil ht hM =>
      have hgo : ∀ x ∈ t.successors, ∀ {s s' : St V σ}, Ren M s s' →
          MRel f m (enter f x s) (enter (canonBody m f) (m x) s') :=
        fun x hx s s' h => mrel_enter hm (hlt x hx) (ren_off h hM)
      simp only [step]
      cases ht with
      | goto x => exact hgo x (by simp [Term.successors]) hren
      | @condBr c c' x y hv =>
        simp only [stepTerm, ← ren_valueOf hren hv]
        generalize ((valueOf W s c).bind fun a => W.asBool a) = o
        rcases o with _ | _ | _
        · exact .done _
        · exact hgo y (by simp [Term.successors]) hren
        · exact hgo x (by simp [Term.successors]) hren
      | @invoke op x y ho hres =>
        simp only [stepTerm]
        have := ren_execOp (W := W) (direct := fun _ => false) hren ho (fun _ => hres)
        revert this
        generalize execOp W (fun _ => false) op s = e1
        generalize execOp W (fun _ => false) op s' = e2
        intro h1
        cases h1 with
        | ok h1 =>
          rw [hres] at h1
          exact hgo x (by simp [Term.successors]) h1
        | error h1 => exact hgo y (by simp [Term.successors]) h1
        | halt w => exact .done _
        | stuck => exact .done _
      | @yield v v' x hv =>
        have h1 := ren_exposeOne (W := W) hren hv
        simp only [stepTerm, ← ren_valueOf h1 hv]
        split
        · rw [← h1.world]
          split
          · exact hgo x (by simp [Term.successors]) (h1.withWorld _)
          · exact .done _
        · exact .done _
      | ret => simp only [stepTerm, hren.world]; exact .done _
      | propagateError => simp only [stepTerm, hren.world]; exact .done _
      | cleanupFailure => simp only [stepTerm, hren.world]; exact .done _

/-- A property of the code which is always satisfied. -/
theorem trivial_keeps : BodyKeeps (V := V) (fun _ _ => True) f := by
  refine ⟨fun b _ op _ => ⟨?_, ?_, ?_, ?_, ?_⟩, fun b _ op n e _ => ⟨?_, ?_, ?_, ?_, ?_⟩, ?_⟩ <;> intros <;> trivial

theorem canon_same {m : Nat → Nat} (hne : f ≠ []) (hr : InRange f) (hm : Sound f m) (h0 : m 0 = 0) :
    SameBehaviour W f (canonBody m f) w := by
  let R : Config V σ → Config V σ → Prop := fun c c' => MRel f m c c' ∧ ConfigAll (fun _ _ => True) f c
  have hstep : ∀ c c', R c c' → R (step W f c) (step W (canonBody m f) c') := by
    rintro c c' ⟨h1, h2⟩
    refine ⟨mrel_step hm h1 ?_, configAll_step trivial_keeps h2⟩
    rintro ops t s rfl x hx
    obtain ⟨⟨b, hb, _, rfl⟩, _⟩ := h2
    exact hr b hb x hx
  refine sim_both R ?_ ?_ ?_ (fun c c' h => ⟨1, hstep c c' h⟩) (fun c c' h => ⟨1, hstep c c' h⟩) ?_
  · rintro c c' ⟨h, _⟩
    cases h with
    | done => rfl
    | code h _ => simp only [Config.world?, h.world]
  · rintro x c' ⟨h, _⟩
    cases h; rfl
  · rintro x c ⟨h, _⟩
    cases h; rfl
  · refine ⟨?_, configAll_start (fun _ => trivial) w⟩
    have := mrel_enter (s := (⟨fun _ => none, w⟩ : St V σ)) hm (x := 0) (List.length_pos_iff.2 hne) Off.refl
    rw [h0] at this
    exact this

/-! ### Blocks which stay -/

theorem valRel_of {M : Corr} {v : Value} (h : ∀ r, v = .register r → M.rel r r) : ValRel M v v := by
  cases v with
  | register r => exact .reg (h r rfl)
  | _ => exact .same (by simp)

theorem valsRel_of {M : Corr} {vs : List Value} (h : ∀ r, Value.register r ∈ vs → M.rel r r) :
    List.Forall₂ (ValRel M) vs vs := by
  induction vs with
  | nil => exact .nil
  | cons v vs ih => exact .cons (valRel_of fun r hr => h r (by simp [hr])) (ih fun r hr => h r (by simp [hr]))

theorem termRel_self {M : Corr} {m : Nat → Nat} {t : Term} (h : ∀ r, Value.register r ∈ t.operands → M.rel r r)
    (hi : ∀ op n e, t = .invoke op n e → op.result = none) : TermRel m M t (mapTargets m t) := by
  cases t with
  | goto x => exact .goto x
  | condBr c x y => exact .condBr x y (valRel_of fun r hr => h r (by simp [Term.operands, hr]))
  | invoke op x y => exact .invoke x y ⟨rfl, valsRel_of fun r hr => h r hr, rfl⟩ (hi op x y rfl)
  | yield v x => exact .yield x (valRel_of fun r hr => h r (by simp [Term.operands, hr]))
  | ret => exact .ret
  | propagateError => exact .propagateError
  | cleanupFailure => exact .cleanupFailure

/-- A register of the set which a block uses is one of its results. -/
theorem dup_own (hsep : Separate f) {x : Nat} {b : Block} (hb : f[x]? = some b) {r : Nat} (hr : Dup f r)
    (hm : Mentions b r) : ∃ (x' y : Nat) (bx bz : Block), f[x']? = some bx ∧ f[y]? = some bz ∧ x' ≠ y ∧ Alike bx bz ∧ r ∈ bx.results ∧ x' = x := by
  obtain ⟨x', y, bx, bz, h1, h2, h3, h4, h5⟩ := hr
  refine ⟨x', y, bx, bz, h1, h2, h3, h4, h5, ?_⟩
  by_contra hne
  exact hsep.twins x' y bx bz h1 h2 h3 h4 r h5 x b hb (fun h => hne h.symm) hm

theorem dup_result (hsep : Separate f) {x : Nat} {b : Block} (hb : f[x]? = some b) {r : Nat} (hr : Dup f r)
    (hm : Mentions b r) : r ∈ b.results := by
  obtain ⟨x', y, bx, bz, h1, h2, h3, h4, h5, rfl⟩ := dup_own hsep hb hr hm
  rw [hb] at h1
  cases h1
  exact h5

theorem match_self (hv : Valid f) (hsep : Separate f) {m : Nat → Nat} {x : Nat} {b : Block} (hb : f[x]? = some b) :
    ∀ (post pre : List Op) (M : Corr), b.ops = pre ++ post → (∀ a, ¬ Dup f a → M.rel a a) →
      (∀ op ∈ pre, ∀ r, op.result = some r → M.rel r r) →
      Match (Dup f) m b.term (mapTargets m b.term) M post post := by
  have hmem := List.mem_of_getElem? hb
  intro post
  induction post with
  | nil =>
    intro pre M hops h1 h2
    refine .nil (termRel_self ?_ fun op n e h => hv.single.2 b hmem op n e h) h1
    intro r hr
    by_cases hd : Dup f r
    · have := dup_result hsep hb hd (Or.inr hr)
      unfold Block.results at this
      obtain ⟨op, hop, hres⟩ := List.mem_filterMap.1 this
      exact h2 op (by rw [hops] at hop; simpa using hop) r hres
    · exact h1 r hd
  | cons op post ih =>
    intro pre M hops h1 h2
    have hop : op ∈ b.ops := by rw [hops]; simp
    refine .cons ⟨rfl, valsRel_of ?_, rfl⟩ (hsep.noResult b hmem op hop) (ih (pre ++ [op]) _ (by simp [hops]) ?_ ?_)
    · intro r hr
      by_cases hd : Dup f r
      · have := dup_result hsep hb hd (Or.inl ⟨op, hop, hr⟩)
        unfold Block.results at this
        obtain ⟨op', hop', hres⟩ := List.mem_filterMap.1 this
        rw [hops, List.mem_append] at hop'
        rcases hop' with hop' | hop'
        · exact h2 op' hop' r hres
        · exact absurd hres (hsep.before b hmem pre op post hops r hr op' hop')
      · exact h1 r hd
    · intro a ha
      cases hres : op.result with
      | none => exact h1 a ha
      | some q =>
        by_cases haq : a = q
        · exact Or.inl ⟨haq, haq⟩
        · exact Or.inr ⟨haq, haq, h1 a ha⟩
    · intro op' hop' r hr
      cases hres : op.result with
      | none =>
        rw [List.mem_append, List.mem_singleton] at hop'
        rcases hop' with hop' | rfl
        · exact h2 op' hop' r hr
        · rw [hres] at hr; cases hr
      | some q =>
        by_cases haq : r = q
        · exact Or.inl ⟨haq, haq⟩
        · refine Or.inr ⟨haq, haq, ?_⟩
          rw [List.mem_append, List.mem_singleton] at hop'
          rcases hop' with hop' | rfl
          · exact h2 op' hop' r hr
          · rw [hres] at hr; cases hr; exact absurd rfl haq

/-! ### Blocks which are replaced -/

theorem mem_of_idxOf? {l : List Nat} {a i : Nat} (h : l.idxOf? a = some i) : a ∈ l := by
  by_contra hn
  rw [List.idxOf?_eq_none_iff.2 hn] at h
  cases h

theorem alphaValue_alike {b b' : Block} {ls rs : List Nat} (hl : ∀ r ∈ ls, r ∈ b.results) (hrs : ∀ r ∈ rs, r ∈ b'.results)
    {v v' : Value} (h : alphaValue v v' ls rs = true) : AlikeValue b b' v v' := by
  unfold alphaValue at h
  split at h
  · rename_i l r
    split at h
    · rename_i a c h1 h2
      exact Or.inr ⟨l, r, rfl, rfl, hl l (mem_of_idxOf? h1), hrs r (mem_of_idxOf? h2)⟩
    · exact Or.inl (by rw [beq_iff_eq] at h; rw [h])
    · cases h
  · exact Or.inl (by simpa using h)

theorem alphaValues_forall {ls rs : List Nat} : ∀ {vs vs' : List Value}, alphaValues ls rs vs vs' = true →
    List.Forall₂ (fun v v' => alphaValue v v' ls rs = true) vs vs'
  | [], [], _ => .nil
  | v :: vs, v' :: vs', h => by
    rw [alphaValues, Bool.and_eq_true] at h
    exact .cons h.1 (alphaValues_forall h.2)
  | [], _ :: _, h => by cases h
  | _ :: _, [], h => by cases h

/-- One step of the comparison. -/
theorem alphaOps_cons {l r : Op} {left right : List Op} {ls rs ls' rs' : List Nat}
    (h : alphaOps (l :: left) (r :: right) ls rs = some (ls', rs')) :
    l.kind = r.kind ∧ List.Forall₂ (fun v v' => alphaValue v v' ls rs = true) l.operands r.operands ∧
      l.result.isSome = r.result.isSome ∧
      alphaOps left right (ls ++ l.result.toList) (rs ++ r.result.toList) = some (ls', rs') := by
  rw [alphaOps] at h
  split at h
  · rename_i hk
    refine ⟨hk.1, alphaValues_forall hk.2, ?_⟩
    split at h
    · rename_i a b h1 h2
      rw [h1, h2]; exact ⟨rfl, h⟩
    · rename_i h1 h2
      rw [h1, h2]; simpa using h
    · cases h
  · cases h

theorem alphaOps_alike {b b' : Block} : ∀ {ops ops' : List Op} {ls rs ls' rs' : List Nat},
    alphaOps ops ops' ls rs = some (ls', rs') →
    (∀ r ∈ ls ++ ops.filterMap (·.result), r ∈ b.results) → (∀ r ∈ rs ++ ops'.filterMap (·.result), r ∈ b'.results) →
    List.Forall₂ (AlikeOp b b') ops ops' ∧ ls' = ls ++ ops.filterMap (·.result) ∧ rs' = rs ++ ops'.filterMap (·.result)
  | [], [], ls, rs, ls', rs', h, _, _ => by
    simp only [alphaOps, Option.some.injEq, Prod.mk.injEq] at h
    simp [h.1, h.2]
  | [], _ :: _, _, _, _, _, h, _, _ => by cases h
  | _ :: _, [], _, _, _, _, h, _, _ => by cases h
  | op :: ops, op' :: ops', ls, rs, ls', rs', h, hl, hrs => by
    obtain ⟨h1, h2, h3, h4⟩ := alphaOps_cons h
    have e : ∀ (o : Op) (os : List Op) (l : List Nat),
        l ++ o.result.toList ++ os.filterMap (·.result) = l ++ (o :: os).filterMap (·.result) := by
      intro o os l
      cases ho : o.result <;> simp [ho]
    obtain ⟨k1, k2, k3⟩ := alphaOps_alike h4 (by rw [e]; exact hl) (by rw [e]; exact hrs)
    rw [e] at k2 k3
    refine ⟨.cons ⟨h1, h3, h2.imp fun v v' hv => alphaValue_alike ?_ ?_ hv⟩ k1, k2, k3⟩
    · intro r hr; exact hl r (by simp [hr])
    · intro r hr; exact hrs r (by simp [hr])

/-- Registers with the same ordinal correspond. -/
def Good (D : Nat → Prop) (M : Corr) (ls rs : List Nat) : Prop :=
  (∀ (i a a' : Nat), ls[i]? = some a → rs[i]? = some a' → M.rel a a') ∧ ∀ a, ¬ D a → M.rel a a

theorem valRel_alpha {D : Nat → Prop} {M : Corr} {ls rs : List Nat} (hg : Good D M ls rs) (hl : ls.Nodup) (hrs : rs.Nodup)
    {v v' : Value} (h : alphaValue v v' ls rs = true) (hd : ∀ r, v = .register r → v' = .register r → ¬ D r) :
    ValRel M v v' := by
  unfold alphaValue at h
  split at h
  · rename_i l r
    split at h
    · rename_i a c h1 h2
      rw [beq_iff_eq] at h
      subst h
      exact .reg (hg.1 a l r ((Edit.idxOf?_iff hl _ _).1 h1) ((Edit.idxOf?_iff hrs _ _).1 h2))
    · rw [beq_iff_eq] at h
      subst h
      exact .reg (hg.2 l (hd l rfl rfl))
    · cases h
  · rename_i hn
    rw [beq_iff_eq] at h
    subst h
    cases v with
    | register r => exact absurd rfl (hn r r rfl)
    | _ => exact .same (by simp)

theorem good_bind {D : Nat → Prop} {M : Corr} {ls rs : List Nat} (hg : Good D M ls rs) (hlen : ls.length = rs.length)
    {r r' : Option Nat} (hrr : r.isSome = r'.isSome) (hl : (ls ++ r.toList).Nodup) (hrs : (rs ++ r'.toList).Nodup)
    (hd : ∀ a, r = some a → D a) (hd' : ∀ a, r' = some a → D a) :
    Good D (M.bind r r') (ls ++ r.toList) (rs ++ r'.toList) := by
  cases r with
  | none =>
    cases r' with
    | none => simpa [Corr.bind] using hg
    | some q => cases hrr
  | some q =>
    cases r' with
    | none => cases hrr
    | some q' =>
      simp only [Option.toList_some] at hl hrs ⊢
      rw [List.nodup_append] at hl hrs
      refine ⟨?_, ?_⟩
      · intro i a a' h1 h2
        by_cases hi : i < ls.length
        · rw [List.getElem?_append_left hi] at h1
          rw [List.getElem?_append_left (by omega)] at h2
          exact Or.inr ⟨hl.2.2 a (List.mem_of_getElem? h1) q (by simp), hrs.2.2 a' (List.mem_of_getElem? h2) q' (by simp),
            hg.1 i a a' h1 h2⟩
        · rw [List.getElem?_append_right (by omega)] at h1
          rw [List.getElem?_append_right (by omega)] at h2
          rw [hlen] at h1
          cases hk : i - rs.length with
          | zero =>
            rw [hk] at h1 h2
            simp at h1 h2
            exact Or.inl ⟨h1.symm, h2.symm⟩
          | succ k => rw [hk] at h1; simp at h1
      · intro a ha
        refine Or.inr ⟨?_, ?_, hg.2 a ha⟩
        · rintro rfl; exact ha (hd _ rfl)
        · rintro rfl; exact ha (hd' _ rfl)

theorem forall_valRel {D : Nat → Prop} {M : Corr} {ls rs : List Nat} (hg : Good D M ls rs) (hl : ls.Nodup)
    (hrs : rs.Nodup) {vs vs' : List Value} (h : List.Forall₂ (fun v v' => alphaValue v v' ls rs = true) vs vs')
    (hd : ∀ r, Value.register r ∈ vs → Value.register r ∈ vs' → ¬ D r) : List.Forall₂ (ValRel M) vs vs' := by
  induction h with
  | nil => exact .nil
  | cons h1 _ ih =>
    refine .cons (valRel_alpha hg hl hrs h1 ?_) (ih ?_)
    · rintro r rfl rfl; exact hd r (by simp) (by simp)
    · intro r k1 k2; exact hd r (by simp [k1]) (by simp [k2])

theorem termRel_alpha {D : Nat → Prop} {M : Corr} {ls rs : List Nat} (hg : Good D M ls rs) (hl : ls.Nodup)
    (hrs : rs.Nodup) {rep : List (Nat × Nat)} {t t' : Term} (h : alphaTerm rep ls rs t t' = true)
    (hd : ∀ r, Value.register r ∈ t.operands → Value.register r ∈ t'.operands → ¬ D r) :
    TermRel (canonical rep) M t (mapTargets (canonical rep) t') := by
  cases t <;> cases t' <;> simp only [alphaTerm, Bool.and_eq_true, beq_iff_eq, Bool.false_eq_true] at h
  · simp only [mapTargets, ← h]; exact .goto _
  · obtain ⟨⟨h1, h2⟩, h3⟩ := h
    simp only [mapTargets, ← h2, ← h3]
    refine .condBr _ _ (valRel_alpha hg hl hrs h1 ?_)
    rintro r rfl rfl
    exact hd r (by simp [Term.operands]) (by simp [Term.operands])
  · obtain ⟨h1, h2⟩ := h
    simp only [mapTargets, ← h2]
    refine .yield _ (valRel_alpha hg hl hrs h1 ?_)
    rintro r rfl rfl
    exact hd r (by simp [Term.operands]) (by simp [Term.operands])
  · exact .ret
  · exact .propagateError
  · exact .cleanupFailure

theorem alikeEnd_alpha {b b' : Block} {ls rs : List Nat} (hl : ∀ r ∈ ls, r ∈ b.results) (hrs : ∀ r ∈ rs, r ∈ b'.results)
    {rep : List (Nat × Nat)} {t t' : Term} (h : alphaTerm rep ls rs t t' = true) : AlikeEnd b b' t t' := by
  cases t <;> cases t' <;> simp only [alphaTerm, Bool.and_eq_true, beq_iff_eq, Bool.false_eq_true] at h
  · exact .goto _ _
  · exact .condBr _ _ _ _ (alphaValue_alike hl hrs h.1.1)
  · exact .yield _ _ (alphaValue_alike hl hrs h.1)
  · exact .ret
  · exact .propagateError
  · exact .cleanupFailure

theorem match_alpha {D U U' : Nat → Prop} {rep : List (Nat × Nat)} {t t' : Term} (hU : ∀ r, U r → U' r → ¬ D r)
    (ht : ∀ r, Value.register r ∈ t.operands → U r) (ht' : ∀ r, Value.register r ∈ t'.operands → U' r)
    {ls' rs' : List Nat} (hterm : alphaTerm rep ls' rs' t t' = true) :
    ∀ {ops ops' : List Op} {ls rs : List Nat} {M : Corr}, alphaOps ops ops' ls rs = some (ls', rs') →
      Good D M ls rs → ls.length = rs.length → (ls ++ ops.filterMap (·.result)).Nodup →
      (rs ++ ops'.filterMap (·.result)).Nodup → (∀ a ∈ ops.filterMap (·.result), D a) →
      (∀ a ∈ ops'.filterMap (·.result), D a) → (∀ op ∈ ops, ∀ r, Value.register r ∈ op.operands → U r) →
      (∀ op ∈ ops', ∀ r, Value.register r ∈ op.operands → U' r) →
      (∀ op ∈ ops, op.kind = .store → op.result = none) →
      Match D (canonical rep) t (mapTargets (canonical rep) t') M ops ops'
  | [], [], ls, rs, M, h, hg, _, hl, hrs, _, _, _, _, _ => by
    simp only [alphaOps, Option.some.injEq, Prod.mk.injEq] at h
    obtain ⟨rfl, rfl⟩ := h
    simp at hl hrs
    exact .nil (termRel_alpha hg hl hrs hterm fun r h1 h2 => hU r (ht r h1) (ht' r h2)) hg.2
  | [], _ :: _, _, _, _, h, _, _, _, _, _, _, _, _, _ => by cases h
  | _ :: _, [], _, _, _, h, _, _, _, _, _, _, _, _, _ => by cases h
  | op :: ops, op' :: ops', ls, rs, M, h, hg, hlen, hl, hrs, hD, hD', hu, hu', hst => by
    obtain ⟨h1, h2, h3, h4⟩ := alphaOps_cons h
    have e : ∀ (o : Op) (os : List Op) (l : List Nat),
        l ++ o.result.toList ++ os.filterMap (·.result) = l ++ (o :: os).filterMap (·.result) := by
      intro o os l
      cases ho : o.result <;> simp [ho]
    have hl1 : (ls ++ op.result.toList ++ ops.filterMap (·.result)).Nodup := by rw [e]; exact hl
    have hrs1 : (rs ++ op'.result.toList ++ ops'.filterMap (·.result)).Nodup := by rw [e]; exact hrs
    have hl0 := (List.nodup_append.1 hl).1
    have hrs0 := (List.nodup_append.1 hrs).1
    have hmem : ∀ (o : Op) (os : List Op) a, o.result = some a → a ∈ (o :: os).filterMap (·.result) :=
      fun o os a ha => List.mem_filterMap.2 ⟨o, by simp, ha⟩
    have htail : ∀ (o : Op) (os : List Op) a, a ∈ os.filterMap (·.result) → a ∈ (o :: os).filterMap (·.result) := by
      intro o os a ha
      obtain ⟨o', k1, k2⟩ := List.mem_filterMap.1 ha
      exact List.mem_filterMap.2 ⟨o', by simp [k1], k2⟩
    refine .cons ⟨h1, forall_valRel hg hl0 hrs0 h2 fun r k1 k2 => hU r (hu op (by simp) r k1) (hu' op' (by simp) r k2), h3⟩
      (hst op (by simp)) (match_alpha hU ht ht' hterm h4 (good_bind hg hlen h3 (List.nodup_append.1 hl1).1
        (List.nodup_append.1 hrs1).1 (fun a ha => hD a (hmem op ops a ha)) fun a ha => hD' a (hmem op' ops' a ha)) ?_ hl1 hrs1
        (fun a ha => hD a (htail op ops a ha)) (fun a ha => hD' a (htail op' ops' a ha))
        (fun o ho => hu o (by simp [ho])) (fun o ho => hu' o (by simp [ho])) fun o ho => hst o (by simp [ho]))
    have : op.result.toList.length = op'.result.toList.length := by
      cases k : op.result <;> cases k' : op'.result <;> rw [k, k'] at h3 <;> simp at h3 ⊢
    simp [hlen, this]

/-- A register is defined in one block. -/
theorem result_block (hv : Valid f) {x y : Nat} {b b' : Block} (hb : f[x]? = some b) (hb' : f[y]? = some b') {r : Nat}
    (h : r ∈ b.results) (h' : r ∈ b'.results) : x = y := by
  have hd := hv.single.1
  unfold results at hd
  have hp := (List.nodup_flatMap.1 hd).2
  obtain ⟨hx, rfl⟩ := List.getElem?_eq_some_iff.1 hb
  obtain ⟨hy, rfl⟩ := List.getElem?_eq_some_iff.1 hb'
  rw [List.pairwise_iff_getElem] at hp
  rcases Nat.lt_trichotomy x y with hlt | heq | hlt
  · exact absurd h' (hp x y hx hy hlt h)
  · exact heq
  · exact absurd h (hp y x hy hx hlt h')

/-- Two different blocks which the comparison accepts match. -/
theorem match_blocks (hv : Valid f) (hsep : Separate f) {x y : Nat} {b b' : Block} (hb : f[x]? = some b)
    (hb' : f[y]? = some b') (hne : x ≠ y) {rep : List (Nat × Nat)} (h : alphaBlock rep b b' = true) :
    Match (Dup f) (canonical rep) b.term (mapTargets (canonical rep) b'.term) (Corr.off (Dup f)) b.ops b'.ops := by
  have hmem := List.mem_of_getElem? hb
  have hmem' := List.mem_of_getElem? hb'
  unfold alphaBlock at h
  split at h
  · rename_i ls rs ho
    obtain ⟨k1, rfl, rfl⟩ := alphaOps_alike (b := b) (b' := b') ho (by simp [Block.results]) (by simp [Block.results])
    have halike : Alike b b' := ⟨k1, alikeEnd_alpha (by simp [Block.results]) (by simp [Block.results]) h⟩
    have hnd : ∀ c ∈ f, c.results.Nodup := by
      intro c hc
      have := hv.single.1
      unfold results at this
      exact (List.nodup_flatMap.1 this).1 c hc
    refine match_alpha (U := Mentions b) (U' := Mentions b') ?_ (fun r hr => Or.inr hr) (fun r hr => Or.inr hr) h ho
      ⟨by simp, fun a ha => ⟨rfl, ha⟩⟩ rfl ?_ ?_ ?_ ?_ (fun op hop r hr => Or.inl ⟨op, hop, hr⟩)
      (fun op hop r hr => Or.inl ⟨op, hop, hr⟩) (hsep.noResult b hmem)
    · intro r h1 h2 hd
      have r1 := dup_result hsep hb hd h1
      have r2 := dup_result hsep hb' hd h2
      exact hne (result_block hv hb hb' r1 r2)
    · simpa [Block.results] using hnd b hmem
    · simpa [Block.results] using hnd b' hmem'
    · exact fun a ha => ⟨x, y, b, b', hb, hb', hne, halike, ha⟩
    · exact fun a ha => ⟨y, x, b', b, hb', hb, hne.symm, halike.symm, ha⟩
  · cases h

/-! ### The replacements -/

/-- What the loop maintains; `P` are the blocks visited so far. -/
structure Inv (f : Body) (P : List Nat) (st : State) : Prop where
  reps : ∀ h x, (h, x) ∈ st.representatives → x ∈ P ∧ x < f.length ∧ st.replacement.lookup x = none
  keys : ∀ b r, st.replacement.lookup b = some r → b ∈ P ∧ (∃ h, (h, r) ∈ st.representatives) ∧ b ≠ r ∧
    ∃ (blk blk' : Block), f[b]? = some blk ∧ f[r]? = some blk' ∧ alphaBlock st.replacement blk blk' = true

theorem findRepresentative_spec {rep : List (Nat × Nat)} {h : Nat} {left : Block} : ∀ (l : List (Nat × Nat)),
    (∀ h x, (h, x) ∈ l → x < f.length) → ∃ o, findRepresentative f rep h left l = some o ∧
      ∀ x, o = some x → (∃ h', (h', x) ∈ l) ∧ ∃ blk, f[x]? = some blk ∧ alphaBlock rep left blk = true
  | [], _ => ⟨none, rfl, fun _ h => (by cases h)⟩
  | (h', c) :: rest, hl => by
    obtain ⟨o, k1, k2⟩ := findRepresentative_spec (rep := rep) (h := h) (left := left) rest fun h x hx => hl h x (by simp [hx])
    have hrest : ∃ o, findRepresentative f rep h left rest = some o ∧
        ∀ x, o = some x → (∃ h'', (h'', x) ∈ (h', c) :: rest) ∧ ∃ blk, f[x]? = some blk ∧ alphaBlock rep left blk = true := by
      refine ⟨o, k1, fun x hx => ?_⟩
      obtain ⟨⟨q, k3⟩, k4⟩ := k2 x hx
      exact ⟨⟨q, by simp [k3]⟩, k4⟩
    rw [findRepresentative]
    split
    · have hb := List.getElem?_eq_getElem (hl h' c (by simp))
      unfold alphaAt
      rw [hb, Option.map_some]
      cases ha : alphaBlock rep left (f[c]'(hl h' c (by simp))) with
      | true => exact ⟨some c, rfl, fun x hx => by cases hx; exact ⟨⟨h', by simp⟩, _, hb, ha⟩⟩
      | false => exact hrest
    · exact hrest

theorem canonical_cons {rep : List (Nat × Nat)} {b r t t' : Nat} (hb : rep.lookup b = none)
    (hv : ∀ c, rep.lookup c ≠ some b) (h : canonical rep t = canonical rep t') :
    canonical ((b, r) :: rep) t = canonical ((b, r) :: rep) t' := by
  have key : ∀ t, canonical rep t = b → t = b := by
    intro t ht
    unfold canonical at ht
    cases hl : rep.lookup t with
    | none => rw [hl] at ht; exact ht
    | some c => rw [hl] at ht; subst ht; exact absurd hl (hv t)
  have hbb : canonical rep b = b := by unfold canonical; rw [hb]; rfl
  by_cases h1 : t = b
  · subst h1
    rw [key t' (h.symm.trans hbb)]
  · by_cases h2 : t' = b
    · subst h2
      exact absurd (key t (h.trans hbb)) h1
    · have e : ∀ t, t ≠ b → canonical ((b, r) :: rep) t = canonical rep t := by
        intro t ht
        unfold canonical
        rw [List.lookup_cons, show (t == b) = false by simpa using ht]
      rw [e t h1, e t' h2, h]

theorem alphaTerm_cons {rep : List (Nat × Nat)} {b r : Nat} (hb : rep.lookup b = none) (hv : ∀ c, rep.lookup c ≠ some b)
    {ls rs : List Nat} {t t' : Term} (h : alphaTerm rep ls rs t t' = true) : alphaTerm ((b, r) :: rep) ls rs t t' = true := by
  cases t <;> cases t' <;> simp only [alphaTerm, Bool.and_eq_true, beq_iff_eq, Bool.false_eq_true] at h ⊢
  · exact canonical_cons hb hv h
  · exact ⟨⟨h.1.1, canonical_cons hb hv h.1.2⟩, canonical_cons hb hv h.2⟩
  · exact ⟨h.1, canonical_cons hb hv h.2⟩

theorem alphaBlock_cons {rep : List (Nat × Nat)} {b r : Nat} (hb : rep.lookup b = none) (hv : ∀ c, rep.lookup c ≠ some b)
    {x y : Block} (h : alphaBlock rep x y = true) : alphaBlock ((b, r) :: rep) x y = true := by
  unfold alphaBlock at h ⊢
  split at h
  · exact alphaTerm_cons hb hv h
  · cases h

theorem visit_inv {hash : List Token → Nat} {P : List Nat} {st : State} (hinv : Inv f P st) {b : Nat} (hb : b < f.length)
    (hbP : b ∉ P) : ∃ st', visit hash f st b = some st' ∧ Inv f (b :: P) st' := by
  have hget := List.getElem?_eq_getElem hb
  have hmono : Inv f (b :: P) st :=
    ⟨fun h x hx => ⟨by simp [(hinv.reps h x hx).1], (hinv.reps h x hx).2⟩,
     fun c r hc => ⟨by simp [(hinv.keys c r hc).1], (hinv.keys c r hc).2⟩⟩
  have hnone : st.replacement.lookup b = none := by
    cases hl : st.replacement.lookup b with
    | none => rfl
    | some r => exact absurd (hinv.keys b r hl).1 hbP
  have hnval : ∀ c, st.replacement.lookup c ≠ some b := by
    intro c hc
    obtain ⟨_, ⟨h, hh⟩, _⟩ := hinv.keys c b hc
    exact hbP (hinv.reps h b hh).1
  unfold visit
  rw [hget]
  simp only []
  cases hf : fingerprint hash st.replacement f[b] with
  | none => exact ⟨st, rfl, hmono⟩
  | some h =>
    obtain ⟨o, k1, k2⟩ := findRepresentative_spec (f := f) (rep := st.replacement) (h := h) (left := f[b])
      st.representatives fun h x hx => (hinv.reps h x hx).2.1
    simp only [k1]
    cases o with
    | none =>
      refine ⟨_, rfl, ?_, ?_⟩
      · intro h' x hx
        simp only [List.mem_append, List.mem_singleton, Prod.mk.injEq] at hx
        rcases hx with hx | ⟨rfl, rfl⟩
        · exact hmono.reps h' x hx
        · exact ⟨by simp, hb, hnone⟩
      · intro c r hc
        obtain ⟨q1, ⟨h', q2⟩, q3⟩ := hmono.keys c r hc
        exact ⟨q1, ⟨h', by simp [q2]⟩, q3⟩
    | some r =>
      obtain ⟨⟨h', hr⟩, blk, hblk, halpha⟩ := k2 r rfl
      have hne : ∀ x, x ∈ P → x ≠ b := by rintro x hx rfl; exact hbP hx
      refine ⟨_, rfl, ?_, ?_⟩
      · intro h'' x hx
        obtain ⟨q1, q2, q3⟩ := hinv.reps h'' x hx
        refine ⟨by simp [q1], q2, ?_⟩
        simp only [List.lookup_cons]
        have : (x == b) = false := by simpa using hne x q1
        rw [this]; exact q3
      · intro c q hc
        by_cases hcb : c = b
        · subst hcb
          simp only [List.lookup_cons, beq_self_eq_true] at hc
          cases hc
          exact ⟨by simp, ⟨h', hr⟩, fun h => hne r (hinv.reps h' r hr).1 h.symm, _, blk, hget, hblk,
            alphaBlock_cons hnone hnval halpha⟩
        · simp only [List.lookup_cons] at hc
          have : (c == b) = false := by simpa using hcb
          rw [this] at hc
          obtain ⟨q1, q2, q3, blk1, blk2, q4, q5, q6⟩ := hinv.keys c q hc
          exact ⟨by simp [q1], q2, q3, blk1, blk2, q4, q5, alphaBlock_cons hnone hnval q6⟩

theorem visits_inv {hash : List Token → Nat} : ∀ (l P : List Nat) (st : State), Inv f P st → l.Nodup →
    (∀ b ∈ l, b < f.length ∧ b ∉ P) → ∃ st', l.foldlM (visit hash f) st = some st' ∧ Inv f (l.reverse ++ P) st'
  | [], P, st, h, _, _ => ⟨st, rfl, h⟩
  | b :: l, P, st, h, hnd, hl => by
    obtain ⟨st1, k1, k2⟩ := visit_inv (hash := hash) h (hl b (by simp)).1 (hl b (by simp)).2
    rw [List.nodup_cons] at hnd
    obtain ⟨st2, k3, k4⟩ := visits_inv (hash := hash) l (b :: P) st1 k2 hnd.2 fun c hc =>
      ⟨(hl c (by simp [hc])).1, by
        simp only [List.mem_cons, not_or]
        exact ⟨fun h => hnd.1 (h ▸ hc), (hl c (by simp [hc])).2⟩⟩
    refine ⟨st2, ?_, by simpa using k4⟩
    rw [List.foldlM_cons, k1]
    exact k3

/-- The replacements found by the pass lead to matching blocks. -/
theorem replacements_spec (hash : List Token → Nat) (hv : Valid f) (hsep : Separate f) (reachable : Finset Nat) :
    ∃ rep, replacements hash f reachable = some rep ∧ Sound f (canonical rep) ∧ canonical rep 0 = 0 := by
  have hmem : ∀ b ∈ candidates f reachable, b ≠ 0 ∧ b < f.length := by
    intro b hb
    simp only [candidates, List.mem_reverse, List.mem_filter] at hb
    have h2 := hb.1
    rw [List.range_eq_range', List.drop_range'] at h2
    simp only [List.mem_range'_1] at h2
    omega
  have hnd : (candidates f reachable).Nodup := by
    unfold candidates
    rw [List.nodup_reverse]
    exact ((List.nodup_range).sublist (List.drop_sublist _ _)).sublist List.filter_sublist
  obtain ⟨st, k1, k2⟩ := visits_inv (f := f) (hash := hash) (candidates f reachable) [] ⟨[], []⟩
    ⟨by simp, by simp⟩ hnd (fun b hb => ⟨(hmem b hb).2, by simp⟩)
  refine ⟨st.replacement, by unfold replacements; rw [k1]; rfl, ?_, ?_⟩
  · intro x b hb
    unfold canonical
    cases hl : st.replacement.lookup x with
    | none => exact ⟨b, hb, match_self hv hsep hb b.ops [] _ rfl (fun a ha => ⟨rfl, ha⟩) (by simp)⟩
    | some r =>
      obtain ⟨_, _, hne, blk, blk', q1, q2, q3⟩ := k2.keys x r hl
      rw [hb] at q1
      cases q1
      exact ⟨blk', q2, match_blocks hv hsep hb q2 hne q3⟩
  · unfold canonical
    cases hl : st.replacement.lookup 0 with
    | none => rfl
    | some r =>
      have := (k2.keys 0 r hl).1
      simp only [List.append_nil, List.mem_reverse] at this
      exact absurd rfl (hmem 0 this).1

theorem canonBody_inRange {m : Nat → Nat} (hr : InRange f) (hm : Sound f m) : InRange (canonBody m f) := by
  intro b hb t ht
  obtain ⟨b0, hb0, rfl⟩ := List.mem_map.1 hb
  have hlen : (canonBody m f).length = f.length := by simp [canonBody]
  rw [hlen]
  have key : ∀ x ∈ b0.term.successors, m x < f.length := by
    intro x hx
    obtain ⟨b', h1, _⟩ := hm x _ (List.getElem?_eq_getElem (hr b0 hb0 x hx))
    exact (List.getElem?_eq_some_iff.1 h1).1
  simp only [] at ht
  have : ∃ x ∈ b0.term.successors, t = m x := by
    revert ht
    cases b0.term <;> simp [mapTargets, Term.successors]
  obtain ⟨x, hx, rfl⟩ := this
  exact key x hx

/-- The body with canonical targets behaves as the original one. -/
theorem redirect_spec {rep : List (Nat × Nat)} (hne : f ≠ []) (hr : InRange f) (hm : Sound f (canonical rep))
    (h0 : canonical rep 0 = 0) : Shorter f (f.map (redirectBlock rep)) := by
  have hr1 := canonBody_inRange hr hm
  have hE : Shortened (canonBody (canonical rep) f) (f.map (redirectBlock rep)) := by
    refine ⟨by simp [canonBody], ?_⟩
    intro b blk hb
    unfold canonBody at hb
    rw [List.getElem?_map] at hb ⊢
    cases hf : f[b]? with
    | none => rw [hf] at hb; cases hb
    | some b0 =>
      rw [hf] at hb
      cases hb
      refine ⟨collapse (mapTargets (canonical rep) b0.term), rfl, ?_⟩
      have := short_collapse (f := canonBody (canonical rep) f) (t := mapTargets (canonical rep) b0.term) (m := fun x => x)
        fun x _ => ⟨0, .here⟩
      rwa [mapTargets_id] at this
  refine ⟨by simp, shortened_inRange hr1 hE, fun V σ W w hs => ?_⟩
  have h1 := canon_same (W := W) (w := w) hne hr hm h0
  exact h1.trans (shortened_same hr1 hE (by simpa [canonBody] using hne) (h1.safe hs))

end Ferlium.TailMerge
