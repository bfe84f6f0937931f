import Verif.Proofs.Borrow

namespace Ferlium.Borrow

theorem partsOverlap_comm : ∀ p q, partsOverlap p q = partsOverlap q p := by
  intro p
  induction p with
  | nil => intro q; cases q with
    | nil => rfl
    | cons b q => cases b <;> rfl
  | cons a p ih =>
    intro q
    cases q with
    | nil => cases a <;> rfl
    | cons b q =>
      cases a <;> cases b <;> simp only [partsOverlap] <;>
      · rename_i i j
        by_cases h : i = j
        · subst h; simp [ih q]
        · simp [h, Ne.symm h]

theorem overlap_comm (p q : Path) : overlap p q = overlap q p := by
  unfold overlap
  by_cases h : p.base = q.base
  · simp [h, partsOverlap_comm]
  · simp [h, Ne.symm h]

/-- Concatenation of argument lists. -/
def Args.append : Args → Args → Args
  | .nil, b => b
  | .cons p e rest, b => .cons p e (rest.append b)

theorem toList_append (a b : Args) : (a.append b).toList = a.toList ++ b.toList := by
  induction a using Args.rec (motive_1 := fun _ => True) with
  | load | project | field | apply | int | immediate | evidence | block | withPlace | assign
  | store | take | drop | method | other => trivial
  | nil => rfl
  | cons p e rest _ ih => simp [Args.append, Args.toList, ih]

/-! ### `let_arguments_overlapping_later_argument_writes` -/

theorem laterWrites_spec {observed : Path} {i : Nat} : ∀ {args : List (Passing × Expr)} {k : Nat}
    {l : List (Nat × Nat)}, laterWrites observed i k args = some l →
    (∀ j, (i, j) ∉ l) → ∀ a ∈ args, mayWrite observed a.2 = some false := by
  intro args
  induction args with
  | nil => intro k l _ _ a ha; simp at ha
  | cons b rest ih =>
    intro k l h hn a ha
    simp only [laterWrites] at h
    cases hb : mayWrite observed b.2 with
    | none => rw [hb] at h; simp at h
    | some v =>
      cases hr : laterWrites observed i (k + 1) rest with
      | none => rw [hb, hr] at h; simp at h
      | some l' =>
        rw [hb, hr] at h
        simp only [Option.some.injEq] at h
        subst h
        cases v with
        | true => exact absurd (by simp) (hn k)
        | false =>
          simp only [Bool.false_eq_true, if_false] at hn
          rcases List.mem_cons.1 ha with rfl | ha
          · exact hb
          · exact ih hr hn a ha

theorem letLater_spec {p : Path} {a : Passing × Expr} {after : List (Passing × Expr)}
    (hobs : observes a = some (some p)) :
    ∀ (before : List (Passing × Expr)) {i : Nat} {pairs : List (Nat × Nat)},
    letLater i (before ++ a :: after) = some pairs →
    (∀ j, (i + before.length, j) ∉ pairs) → ∀ b ∈ after, mayWrite p b.2 = some false := by
  intro before
  induction before with
  | nil =>
    intro i pairs h hn
    simp only [List.nil_append, letLater, hobs] at h
    cases hr : letLater (i + 1) after with
    | none => rw [hr] at h; simp at h
    | some l =>
      rw [hr] at h
      simp only [Option.map_eq_some_iff] at h
      obtain ⟨l', hl', rfl⟩ := h
      exact laterWrites_spec hl' (fun j hj => hn j (by simp [hj]))
  | cons c before ih =>
    intro i pairs h hn
    simp only [List.cons_append, letLater] at h
    cases hr : letLater (i + 1) (before ++ a :: after) with
    | none =>
      rw [hr] at h
      cases ho : observes c with
      | none => rw [ho] at h; simp at h
      | some o => cases o <;> rw [ho] at h <;> simp at h
    | some l =>
      rw [hr] at h
      have hsub : ∀ x ∈ l, x ∈ pairs := by
        cases ho : observes c with
        | none => rw [ho] at h; simp at h
        | some o =>
          cases o with
          | none =>
            rw [ho] at h
            simp only [Option.some.injEq] at h
            subst h
            exact fun x hx => hx
          | some q =>
            rw [ho] at h
            simp only [Option.map_eq_some_iff] at h
            obtain ⟨l', _, rfl⟩ := h
            intro x hx
            simp [hx]
      refine ih hr (fun j hj => hn j (hsub _ ?_))
      simpa [Nat.add_comm, Nat.add_left_comm, Nat.add_assoc] using hj

theorem anyMayWrite_of_all {observed : Path} (args : Args)
    (h : ∀ a ∈ args.toList, mayWrite observed a.2 = some false) :
    anyMayWrite observed args = some false := by
  induction args using Args.rec (motive_1 := fun _ => True) with
  | load | project | field | apply | int | immediate | evidence | block | withPlace | assign
  | store | take | drop | method | other => trivial
  | nil => rfl
  | cons p e rest _ ih =>
    simp only [Args.toList, List.mem_cons, forall_eq_or_imp] at h
    simp only [anyMayWrite, orElse_false]
    exact ⟨h.1, ih h.2⟩

/-! ### `let_arguments_overlapping_mutable` -/

theorem mutablePaths_spec {a : Passing × Expr} (ha : a.1 = .mutableRef) :
    ∀ {args : List (Passing × Expr)} {i : Nat} {muts : List (Nat × Path)},
    mutablePaths i args = some muts → a ∈ args →
    ∃ o, path false a.2 = some o ∧ ∀ p, o = some p → ∃ j, (j, p) ∈ muts := by
  intro args
  induction args with
  | nil => intro i muts _ h; simp at h
  | cons b rest ih =>
    intro i muts h hm
    simp only [mutablePaths] at h
    cases hb : b.1 with
    | byLet =>
      rw [hb] at h
      rcases List.mem_cons.1 hm with rfl | hm
      · rw [hb] at ha; cases ha
      · exact ih h hm
    | mutableRef =>
      rw [hb] at h
      simp only at h
      cases hp : path false b.2 with
      | none => rw [hp] at h; simp at h
      | some o =>
        cases hr : mutablePaths (i + 1) rest with
        | none => rw [hp, hr] at h; cases o <;> simp at h
        | some l =>
          rw [hp, hr] at h
          cases o with
          | none =>
            simp only [Option.some.injEq] at h
            subst h
            rcases List.mem_cons.1 hm with rfl | hm
            · exact ⟨none, hp, by simp⟩
            · exact ih hr hm
          | some q =>
            simp only [Option.some.injEq] at h
            subst h
            rcases List.mem_cons.1 hm with rfl | hm
            · exact ⟨some q, hp, fun p hpq => ⟨i, by simp at hpq; simp [hpq]⟩⟩
            · obtain ⟨o, ho, hmem⟩ := ih hr hm
              exact ⟨o, ho, fun p hpq => (hmem p hpq).imp fun j hj => by simp [hj]⟩

theorem letPairs_spec {muts : List (Nat × Path)} {p : Path} {a : Passing × Expr}
    {after : List (Passing × Expr)} (hobs : observes a = some (some p)) :
    ∀ (before : List (Passing × Expr)) {i : Nat} {pairs : List (Nat × Nat)},
    letPairs muts i (before ++ a :: after) = some pairs →
    ∀ m ∈ muts, overlap p m.2 = true → (i + before.length, m.1) ∈ pairs := by
  intro before
  induction before with
  | nil =>
    intro i pairs h m hm ho
    simp only [List.nil_append, letPairs, hobs] at h
    cases hr : letPairs muts (i + 1) after with
    | none => rw [hr] at h; simp at h
    | some l =>
      rw [hr] at h
      simp only [Option.some.injEq] at h
      subst h
      simp only [List.length_nil, Nat.add_zero, List.mem_append, List.mem_map, List.mem_filter]
      exact .inl ⟨m, ⟨hm, ho⟩, rfl⟩
  | cons c before ih =>
    intro i pairs h m hm ho
    simp only [List.cons_append, letPairs] at h
    cases hr : letPairs muts (i + 1) (before ++ a :: after) with
    | none =>
      rw [hr] at h
      cases ho' : observes c with
      | none => rw [ho'] at h; simp at h
      | some o => cases o <;> rw [ho'] at h <;> simp at h
    | some l =>
      rw [hr] at h
      have hin := ih hr m hm ho
      have he : i + (c :: before).length = i + 1 + before.length := by
        simp only [List.length_cons]; omega
      rw [he]
      cases ho' : observes c with
      | none => rw [ho'] at h; simp at h
      | some o =>
        cases o with
        | none =>
          rw [ho'] at h
          simp only [Option.some.injEq] at h
          subst h
          exact hin
        | some q =>
          rw [ho'] at h
          simp only [Option.some.injEq] at h
          subst h
          exact List.mem_append_right _ hin

theorem argsHit_of_all {observed : Path} (args : Args)
    (h : ∀ a ∈ args.toList, a.1 = .mutableRef → hits a.2 observed = some false) :
    argsHit observed args = some false := by
  induction args using Args.rec (motive_1 := fun _ => True) with
  | load | project | field | apply | int | immediate | evidence | block | withPlace | assign
  | store | take | drop | method | other => trivial
  | nil => rfl
  | cons p e rest _ ih =>
    simp only [Args.toList, List.mem_cons, forall_eq_or_imp] at h
    cases p with
    | byLet => simp only [argsHit]; exact ih h.2
    | mutableRef =>
      simp only [argsHit, orElse_false]
      exact ⟨h.1 rfl, ih h.2⟩

/-- A `Let` argument which is not listed does not overlap a `MutableRef` argument. -/
theorem letMutable_spec {p : Path} {a : Passing × Expr} {before after : List (Passing × Expr)}
    {pairs : List (Nat × Nat)} (hobs : observes a = some (some p))
    (h : letMutable (before ++ a :: after) = some pairs)
    (hn : ∀ j, (before.length, j) ∉ pairs) :
    ∀ b ∈ before ++ a :: after, b.1 = .mutableRef → hits b.2 p = some false := by
  intro b hb hmut
  unfold letMutable at h
  cases hm : mutablePaths 0 (before ++ a :: after) with
  | none => rw [hm] at h; simp at h
  | some muts =>
    rw [hm] at h
    obtain ⟨o, ho, hmem⟩ := mutablePaths_spec hmut hm hb
    unfold hits
    rw [ho]
    cases o with
    | none => rfl
    | some q =>
      obtain ⟨j, hj⟩ := hmem q rfl
      simp only [Option.some.injEq]
      by_contra hov
      have := letPairs_spec hobs before h (j, q) hj (by
        rw [overlap_comm]; simpa using hov)
      rw [Nat.zero_add] at this
      exact hn _ this

/-! ### Which arguments observe a place -/

theorem observes_of_place {W : World} {e : Expr} {env : Env} {s s' : Store} {l : Loc}
    {o : Option (Option Path)}
    (hs : shaped false e = true) (ho : observes (.byLet, e) = o)
    (h : eval W e env s (some (.place l)) s') (hne : o ≠ none) :
    ∃ p, o = some (some p) ∧ Covers W env p l := by
  have hpr := placeRef_of_place e h
  have hm : ¬ e.isMethod := by
    intro hm
    cases e <;> simp [Expr.isMethod] at hm
    obtain ⟨_, _, h⟩ := h
    simp at h
  unfold observes at ho
  rw [if_pos ⟨rfl, hpr, hm⟩] at ho
  cases o with
  | none => exact absurd rfl hne
  | some o =>
    have hr := path_reaches e hs ho h
    cases o with
    | none => exact hr.elim
    | some p => exact ⟨p, rfl, hr⟩

theorem letLater_observes {a : Passing × Expr} {after : List (Passing × Expr)} :
    ∀ (before : List (Passing × Expr)) {i : Nat} {pairs : List (Nat × Nat)},
    letLater i (before ++ a :: after) = some pairs → observes a ≠ none := by
  intro before
  induction before with
  | nil =>
    intro i pairs h hno
    simp only [List.nil_append, letLater, hno] at h
    simp at h
  | cons c before ih =>
    intro i pairs h
    simp only [List.cons_append, letLater] at h
    cases hr : letLater (i + 1) (before ++ a :: after) with
    | none =>
      rw [hr] at h
      cases ho : observes c with
      | none => rw [ho] at h; simp at h
      | some o => cases o <;> rw [ho] at h <;> simp at h
    | some l => exact ih hr

/-! ### `check_elaborated_arguments` -/

theorem elabPaths_mem : ∀ {args : List (Passing × Expr)} {ps : List Path},
    elabPaths args = some ps → ∀ e, (.mutableRef, e) ∈ args →
    ∃ p, path true e = some (some p) ∧ p ∈ ps := by
  intro args
  induction args with
  | nil => intro ps _ e h; simp at h
  | cons b rest ih =>
    intro ps h e hm
    obtain ⟨q, e0⟩ := b
    cases q with
    | byLet =>
      simp only [elabPaths] at h
      rcases List.mem_cons.1 hm with hm | hm
      · simp at hm
      · exact ih h e hm
    | mutableRef =>
      simp only [elabPaths] at h
      cases hp : path true e0 with
      | none => rw [hp] at h; simp at h
      | some o =>
        cases o with
        | none => rw [hp] at h; simp at h
        | some p =>
          cases hr : elabPaths rest with
          | none => rw [hp, hr] at h; simp at h
          | some l =>
            rw [hp, hr] at h
            simp only [Option.some.injEq] at h
            subst h
            rcases List.mem_cons.1 hm with hm | hm
            · simp only [Prod.mk.injEq, true_and] at hm
              subst hm
              exact ⟨p, hp, by simp⟩
            · obtain ⟨p', hp', hmem⟩ := ih hr e hm
              exact ⟨p', hp', by simp [hmem]⟩

/-- Splits an evaluation at the argument with index `i`. -/
theorem evalSeq_get {W : World} (args : Args) {env : Env} {s s' : Store} {rs : Results}
    (h : evalSeq W args env s (some rs) s') : ∀ (i : Nat) (x : Passing × Bool × Res), rs[i]? = some x →
    ∃ e a b, args.toList[i]? = some (x.1, e) ∧ eval W e env a (some x.2.2) b := by
  induction args using Args.rec (motive_1 := fun _ => True) generalizing s rs with
  | load | project | field | apply | int | immediate | evidence | block | withPlace | assign
  | store | take | drop | method | other => trivial
  | nil =>
    intro i x hx
    obtain ⟨_, rfl⟩ := evalSeq_nil h
    simp at hx
  | cons q e rest _ ih =>
    intro i x hx
    obtain ⟨r, s1, rs', he, hrest, rfl⟩ := evalSeq_cons h
    cases i with
    | zero =>
      simp only [List.getElem?_cons_zero, Option.some.injEq] at hx
      subst hx
      exact ⟨e, s, s1, by simp [Args.toList], he⟩
    | succ i =>
      simp only [List.getElem?_cons_succ] at hx
      obtain ⟨e', a, b, h1, h2⟩ := ih hrest i x hx
      exact ⟨e', a, b, by simpa [Args.toList] using h1, h2⟩

/-- Accepted `MutableRef` arguments have paths which do not overlap. -/
theorem check_pair : ∀ {args : List (Passing × Expr)} {ps : List Path},
    elabPaths args = some ps → noOverlap ps = true →
    ∀ (i j : Nat) e e', i < j → args[i]? = some (.mutableRef, e) →
      args[j]? = some (.mutableRef, e') →
    ∃ p q, path true e = some (some p) ∧ path true e' = some (some q) ∧ overlap p q = false := by
  intro args
  induction args with
  | nil => intro ps _ _ i j e e' _ hi; simp at hi
  | cons b rest ih =>
    intro ps h hno i j e e' hij hi hj
    cases j with
    | zero => omega
    | succ j =>
      simp only [List.getElem?_cons_succ] at hj
      obtain ⟨q, e0⟩ := b
      cases q with
      | byLet =>
        simp only [elabPaths] at h
        cases i with
        | zero => simp at hi
        | succ i => exact ih h hno i j e e' (by omega) (by simpa using hi) hj
      | mutableRef =>
        simp only [elabPaths] at h
        cases hp : path true e0 with
        | none => rw [hp] at h; simp at h
        | some o =>
          cases o with
          | none => rw [hp] at h; simp at h
          | some p =>
            cases hr : elabPaths rest with
            | none => rw [hp, hr] at h; simp at h
            | some l =>
              rw [hp, hr] at h
              simp only [Option.some.injEq] at h
              subst h
              simp only [noOverlap, Bool.and_eq_true, List.all_eq_true, Bool.not_eq_true'] at hno
              cases i with
              | succ i => exact ih hr hno.2 i j e e' (by omega) (by simpa using hi) hj
              | zero =>
                simp only [List.getElem?_cons_zero, Option.some.injEq, Prod.mk.injEq,
                  true_and] at hi
                subst hi
                obtain ⟨q, hq, hmem⟩ := elabPaths_mem hr e' (List.mem_of_getElem? hj)
                exact ⟨p, q, hp, hq, hno.1 q hmem⟩

/-! ### `callee_overlaps_argument_writes` -/

theorem callee_fold {observed : Path} : ∀ {args : List (Passing × Expr)},
    args.foldr (fun a rest =>
        orElse (orElse (mayWrite observed a.2)
          (if a.1 = .mutableRef then hits a.2 observed else some false)) rest) (some false)
      = some false →
    ∀ a ∈ args, mayWrite observed a.2 = some false ∧
      (a.1 = .mutableRef → hits a.2 observed = some false) := by
  intro args
  induction args with
  | nil => intro _ a ha; simp at ha
  | cons b rest ih =>
    intro h a ha
    simp only [List.foldr_cons, orElse_false] at h
    rcases List.mem_cons.1 ha with rfl | ha
    · refine ⟨h.1.1, fun hm => ?_⟩
      have := h.1.2
      rwa [if_pos hm] at this
    · exact ih h.2 a ha

end Ferlium.Borrow
