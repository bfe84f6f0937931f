import Verif.Model.Lint
import Mathlib.Tactic

/-!
# C95: a return that the compiler calls needless can be removed

The specification has a meaning of expressions, in which every construct that the lint does not look
into is arbitrary, the correction that a programmer makes at the places of the warnings, and the
positions from which a value flows out of a function.
-/

namespace Ferlium.Lint

/-! ## Meaning -/

/-- How the evaluation of an expression ends: with a value, with a return, or in another way (a
break, an error, a failure). -/
inductive Out (V S X : Type) where
  | val (v : V) (s : S)
  | ret (v : V) (s : S)
  | stop (x : X)
deriving DecidableEq, Repr

/-- A function ends with a value whether its body ends with it or returns it. -/
def Out.ofBody {V S X : Type} : Out V S X → Out V S X
  | .ret v s => .val v s
  | o => o

/-- What the meaning leaves open: the unit and the literals, the choice of a branch, the end of a
scope (given the state at its start), the loss of the value of a statement, and all other
constructs as arbitrary functions of the meanings of their parts. No result means that the
evaluation does not end. -/
structure Lang (V S X : Type) where
  unit : V
  lit : Nat → V
  choose : V → List Nat → S → Option (Nat × S)
  noMatch : X
  leave : S → S → S ⊕ X
  discard : V → S → S ⊕ X
  other : Nat → List (S → Option (Out V S X)) → S → Option (Out V S X)

variable {V S X : Type}

/-- The end of a scope that was entered in state `s`. -/
def Lang.close (L : Lang V S X) (s : S) : Out V S X → Out V S X
  | .val v s' => match L.leave s s' with
    | .inl t => .val v t
    | .inr x => .stop x
  | .ret v s' => match L.leave s s' with
    | .inl t => .ret v t
    | .inr x => .stop x
  | .stop x => .stop x

mutual
/-- The meaning of an expression. -/
def eval (L : Lang V S X) : Expr → S → Option (Out V S X)
  | .ret _ e, s => (eval L e s).map fun o => match o with
    | .val v t => .ret v t
    | o => o
  | .block _ es, s => (run L es s).map (L.close s)
  | .cases _ e ps bs, s => (eval L e s).bind fun o => match o with
    | .val v t => match L.choose v ps t with
      | some (i, u) => (branch L bs i u).map (L.close t)
      | none => some (.stop L.noMatch)
    | o => some o
  | .wrap _ _ e, s => eval L e s
  | .lit _ u n, s => some (.val (if u then L.unit else L.lit n) s)
  | .other _ k es, s => L.other k (evals L es) s
/-- The statements of a block. -/
def run (L : Lang V S X) : List Expr → S → Option (Out V S X)
  | [], s => some (.val L.unit s)
  | [e], s => eval L e s
  | e :: f :: t, s => (eval L e s).bind fun o => match o with
    | .val v s' => match L.discard v s' with
      | .inl u => run L (f :: t) u
      | .inr x => some (.stop x)
    | o => some o
/-- A branch. -/
def branch (L : Lang V S X) : List Expr → Nat → S → Option (Out V S X)
  | [], _, _ => some (.stop L.noMatch)
  | e :: _, 0, s => eval L e s
  | _ :: t, i + 1, s => branch L t i s
/-- The meanings of the parts. -/
def evals (L : Lang V S X) : List Expr → List (S → Option (Out V S X))
  | [] => []
  | e :: t => eval L e :: evals L t
end

/-- What a function with body `e` does. -/
def body (L : Lang V S X) (e : Expr) (s : S) : Option (Out V S X) := (eval L e s).map Out.ofBody

/-! ## The correction -/

/-- The place of a return, from the word to the end of its value. -/
def spot (l : Loc) (value : Expr) : Loc := ⟨l.source, l.start, value.span.stop⟩

/-- A return at one of the places. -/
def isAt (N : List Loc) : Expr → Bool
  | .ret l v => decide (spot l v ∈ N)
  | _ => false

mutual
/-- Remove the returns at the places `N`, and the statements after them. -/
def fix (N : List Loc) : Expr → Expr
  | .ret l v => if spot l v ∈ N then fix N v else .ret l (fix N v)
  | .block l es => .block l (fixStmts N es)
  | .cases l e ps bs => .cases l (fix N e) ps (fixAll N bs)
  | .wrap l k e => .wrap l k (fix N e)
  | .lit l u n => .lit l u n
  | .other l k es => .other l k (fixAll N es)
/-- The statements of a block. -/
def fixStmts (N : List Loc) : List Expr → List Expr
  | [] => []
  | e :: t => if isAt N e then [fix N e] else fix N e :: fixStmts N t
/-- Parts. -/
def fixAll (N : List Loc) : List Expr → List Expr
  | [] => []
  | e :: t => fix N e :: fixAll N t
end

mutual
/-- The places of all returns in an expression. -/
def spots : Expr → List Loc
  | .ret l v => spot l v :: spots v
  | .block _ es => spotsAll es
  | .cases _ e _ bs => spots e ++ spotsAll bs
  | .wrap _ _ e => spots e
  | .lit .. => []
  | .other _ _ es => spotsAll es
/-- Those in parts. -/
def spotsAll : List Expr → List Loc
  | [] => []
  | e :: t => spots e ++ spotsAll t
end

/-! ## Tail positions -/

/-- Not a return. -/
def NotReturn (e : Expr) : Prop := ∀ l v, e ≠ .ret l v

/-- A place made by the compiler: empty and in no source. -/
def Made (l : Loc) : Prop := l.source = 0 ∧ l.start = l.stop

theorem made_iff (l : Loc) : l.synthesized = true ↔ Made l := by
  simp [Loc.synthesized, Made]

/-- A return from which the value would flow out of the function in any case. The unit that the
parser adds after a last semicolon is no expression of the program. -/
inductive Tail : Expr → Loc → Expr → Prop
  | here (l : Loc) (v : Expr) : Tail (.ret l v) l v
  | cut (sp l : Loc) (v : Expr) (pre post : List Expr) (h : ∀ e ∈ pre, NotReturn e) :
      Tail (.block sp (pre ++ .ret l v :: post)) l v
  | last (sp l : Loc) (v : Expr) (pre : List Expr) (e : Expr) (h : ∀ x ∈ pre, NotReturn x)
      (hn : ∀ m n, Made m → e ≠ .lit m true n) (ht : Tail e l v) :
      Tail (.block sp (pre ++ [e])) l v
  | branch (sp l : Loc) (v scr e : Expr) (ps : List Nat) (bs : List Expr) (h : e ∈ bs)
      (ht : Tail e l v) : Tail (.cases sp scr ps bs) l v
  | inside (sp l : Loc) (v e : Expr) (k : Nat) (ht : Tail e l v) : Tail (.wrap sp k e) l v

/-- The place lies in code that was reported as unreachable. -/
def Dead (W : List Warning) (l : Loc) : Prop :=
  ∃ u, .unreachable u ∈ W ∧ u.source = l.source ∧ u.start ≤ l.start ∧ l.stop ≤ u.stop

/-! ## Auxiliary -/

/-- Induction over expressions and their parts. -/
theorem ind {P : Expr → Prop} (ret : ∀ l v, P v → P (.ret l v))
    (block : ∀ l es, (∀ e ∈ es, P e) → P (.block l es))
    (cases : ∀ l e ps bs, P e → (∀ b ∈ bs, P b) → P (.cases l e ps bs))
    (wrap : ∀ l k e, P e → P (.wrap l k e)) (lit : ∀ l u n, P (.lit l u n))
    (other : ∀ l k es, (∀ e ∈ es, P e) → P (.other l k es)) (e : Expr) : P e :=
  Expr.rec (motive_1 := P) (motive_2 := fun es => ∀ e ∈ es, P e)
    (fun l v h => ret l v h) (fun l es h => block l es h)
    (fun l e ps bs h h' => cases l e ps bs h h') (fun l k e h => wrap l k e h)
    (fun l u n => lit l u n) (fun l k es h => other l k es h)
    (by simp) (fun e t h h' => by simp only [List.mem_cons, forall_eq_or_imp]; exact ⟨h, h'⟩) e

/-- The new places reported for a return. -/
def newOf (W : List Warning) (l : Loc) (v : Expr) : List Loc :=
  if !l.synthesized && !isUnreachable l W then [spot l v] else []

mutual
/-- The new places reported. -/
def new (W : List Warning) : Expr → List Loc
  | .ret l v => newOf W l v
  | .block _ es => match firstReturn es with
    | some (l, v) => newOf W l v
    | none => newLast W es
  | .cases _ _ _ bs => newAll W bs
  | .wrap _ _ e => new W e
  | .lit .. => []
  | .other .. => []
/-- In the last statement. -/
def newLast (W : List Warning) : List Expr → List Loc
  | [] => []
  | [e] => if synthesizedUnit e then [] else new W e
  | _ :: e :: t => newLast W (e :: t)
/-- In branches. -/
def newAll (W : List Warning) : List Expr → List Loc
  | [] => []
  | e :: t => new W e ++ newAll W t
end

theorem unreachable_append (W : List Warning) (N : List Loc) (l : Loc) :
    isUnreachable l (W ++ N.map .needless) = isUnreachable l W := by
  simp [isUnreachable, List.any_append, List.any_map]

theorem newOf_append (W : List Warning) (N : List Loc) (l : Loc) (v : Expr) :
    newOf (W ++ N.map .needless) l v = newOf W l v := by
  simp [newOf, unreachable_append]

theorem reportReturn_eq (W : List Warning) (N : List Loc) (l : Loc) (v : Expr) :
    reportReturn l v (W ++ N.map .needless) = W ++ (N ++ newOf W l v).map .needless := by
  unfold reportReturn newOf
  rw [unreachable_append]
  split <;> simp [place, spot]

theorem report_eq (W : List Warning) (e : Expr) : ∀ N : List Loc,
    report e (W ++ N.map .needless) = W ++ (N ++ new W e).map .needless := by
  induction e using ind with
  | ret l v _ => intro N; simp only [report, new, reportReturn_eq]
  | block l es ih =>
    intro N
    simp only [report, new]
    cases firstReturn es with
    | some p => exact reportReturn_eq W N _ _
    | none =>
      simp only
      induction es with
      | nil => simp [reportLast, newLast]
      | cons e t iht =>
        cases t with
        | nil =>
          simp only [reportLast, newLast]
          split
          · simp
          · exact ih e List.mem_cons_self N
        | cons f t =>
          simp only [reportLast, newLast]
          exact iht fun x hx => ih x (List.mem_cons_of_mem _ hx)
  | cases l e ps bs _ ih =>
    simp only [report, new]
    induction bs with
    | nil => intro N; simp [reportAll, newAll]
    | cons b t iht =>
      intro N
      simp only [reportAll, newAll]
      rw [ih b List.mem_cons_self N, iht fun x hx => ih x (List.mem_cons_of_mem _ hx)]
      simp
  | wrap l k e ih => intro N; simpa only [report, new] using ih N
  | lit l u n => intro N; simp [report, new]
  | other l k es _ => intro N; simp [report, new]

theorem mem_spotsAll {es : List Expr} {x : Loc} : x ∈ spotsAll es ↔ ∃ e ∈ es, x ∈ spots e := by
  induction es with
  | nil => simp [spotsAll]
  | cons e t ih => simp [spotsAll, ih]

theorem spotsAll_append (a b : List Expr) : spotsAll (a ++ b) = spotsAll a ++ spotsAll b := by
  induction a with
  | nil => rfl
  | cons e t ih => simp [spotsAll, ih]

theorem mem_newAll {W : List Warning} {es : List Expr} {x : Loc} :
    x ∈ newAll W es ↔ ∃ e ∈ es, x ∈ new W e := by
  induction es with
  | nil => simp [newAll]
  | cons e t ih => simp [newAll, ih]

theorem firstReturn_some {es : List Expr} {l : Loc} {v : Expr} (h : firstReturn es = some (l, v)) :
    ∃ pre post, es = pre ++ .ret l v :: post ∧ ∀ e ∈ pre, NotReturn e := by
  induction es with
  | nil => cases h
  | cons e t ih =>
    cases e with
    | ret l' v' => cases h; exact ⟨[], t, rfl, by simp⟩
    | _ =>
      obtain ⟨pre, post, rfl, hp⟩ := ih h
      refine ⟨_ :: pre, post, rfl, ?_⟩
      simp only [List.mem_cons, forall_eq_or_imp]
      exact ⟨fun l v hh => (nomatch hh), hp⟩

theorem firstReturn_none {es : List Expr} : firstReturn es = none ↔ ∀ e ∈ es, NotReturn e := by
  induction es with
  | nil => simp [firstReturn]
  | cons e t ih =>
    cases e with
    | ret l v =>
      simp only [firstReturn, reduceCtorEq, List.mem_cons, forall_eq_or_imp, false_iff, not_and]
      intro h
      exact absurd rfl (h l v)
    | _ =>
      simp only [firstReturn, ih, List.mem_cons, forall_eq_or_imp, iff_and_self]
      intro _ l v hh
      cases hh

theorem firstReturn_append {pre post : List Expr} {l : Loc} {v : Expr} (h : ∀ e ∈ pre, NotReturn e) :
    firstReturn (pre ++ .ret l v :: post) = some (l, v) := by
  induction pre with
  | nil => rfl
  | cons e t ih =>
    have := h e List.mem_cons_self
    cases e with
    | ret l' v' => exact absurd rfl (this l' v')
    | _ => exact ih fun x hx => h x (List.mem_cons_of_mem _ hx)

theorem newLast_append (W : List Warning) (pre : List Expr) (e : Expr) :
    newLast W (pre ++ [e]) = if synthesizedUnit e then [] else new W e := by
  induction pre with
  | nil => rfl
  | cons x t ih =>
    cases t with
    | nil => exact ih
    | cons y t => exact ih

theorem newOf_sub {W : List Warning} {l : Loc} {v : Expr} {x : Loc} (h : x ∈ newOf W l v) :
    x = spot l v := by
  unfold newOf at h
  split at h
  · simpa using h
  · cases h

theorem new_sub {W : List Warning} (e : Expr) : ∀ x ∈ new W e, x ∈ spots e := by
  induction e using ind with
  | ret l v _ => intro x hx; simp only [spots]; rw [newOf_sub hx]; exact List.mem_cons_self
  | block l es ih =>
    intro x hx
    simp only [new] at hx
    simp only [spots, mem_spotsAll]
    cases hf : firstReturn es with
    | some p =>
      rw [hf] at hx
      obtain ⟨pre, post, rfl, -⟩ := firstReturn_some hf
      exact ⟨.ret p.1 p.2, by simp, by rw [newOf_sub hx]; exact List.mem_cons_self⟩
    | none =>
      rw [hf] at hx
      simp only at hx
      rcases List.eq_nil_or_concat es with rfl | ⟨pre, e, rfl⟩
      · cases hx
      · rw [List.concat_eq_append, newLast_append] at hx
        split at hx
        · cases hx
        · exact ⟨e, by simp, ih e (by simp) x hx⟩
  | cases l e ps bs _ ih =>
    intro x hx
    simp only [new, mem_newAll] at hx
    obtain ⟨b, hb, hx⟩ := hx
    simp only [spots, List.mem_append, mem_spotsAll]
    exact .inr ⟨b, hb, ih b hb x hx⟩
  | wrap l k e ih => intro x hx; exact ih x hx
  | lit l u n => intro x hx; cases hx
  | other l k es _ => intro x hx; cases hx

/-- Nothing is corrected where no place is. -/
theorem fix_none {N : List Loc} (e : Expr) : (∀ x ∈ spots e, x ∉ N) → fix N e = e := by
  have hall : ∀ es : List Expr, (∀ e ∈ es, (∀ x ∈ spots e, x ∉ N) → fix N e = e) →
      (∀ x ∈ spotsAll es, x ∉ N) → fixAll N es = es ∧ fixStmts N es = es := by
    intro es
    induction es with
    | nil => intros; exact ⟨rfl, rfl⟩
    | cons e t ih =>
      intro h hx
      simp only [spotsAll, List.mem_append] at hx
      obtain ⟨h1, h2⟩ := ih (fun e he => h e (List.mem_cons_of_mem _ he)) fun x h => hx x (.inr h)
      have h3 := h e List.mem_cons_self fun x h => hx x (.inl h)
      have h4 : isAt N e = false := by
        cases e with
        | ret l v => simpa [isAt] using hx (spot l v) (.inl List.mem_cons_self)
        | _ => rfl
      simp [fixAll, fixStmts, h1, h2, h3, h4]
  induction e using ind with
  | ret l v ih =>
    intro h
    simp only [spots, List.mem_cons, forall_eq_or_imp] at h
    simp only [fix, if_neg h.1, ih h.2]
  | block l es ih => intro h; simp only [fix, (hall es ih h).2]
  | cases l e ps bs ih ih' =>
    intro h
    simp only [spots, List.mem_append] at h
    simp only [fix, ih fun x hx => h x (.inl hx), (hall bs ih' fun x hx => h x (.inr hx)).1]
  | wrap l k e ih => intro h; simp only [fix, ih h]
  | lit l u n => intro _; rfl
  | other l k es ih => intro h; simp only [fix, (hall es ih h).1]

theorem fixStmts_append {N : List Loc} {pre : List Expr} (h : ∀ e ∈ pre, ∀ x ∈ spots e, x ∉ N)
    (t : List Expr) : fixStmts N (pre ++ t) = pre ++ fixStmts N t := by
  induction pre with
  | nil => rfl
  | cons e p ih =>
    have h1 := h e List.mem_cons_self
    have h4 : isAt N e = false := by
      cases e with
      | ret l v => simpa [isAt] using h1 (spot l v) List.mem_cons_self
      | _ => rfl
    simp only [List.cons_append, fixStmts, h4, fix_none e h1,
      ih fun e he => h e (List.mem_cons_of_mem _ he)]
    simp

/-- The same as the body of a function. -/
def Same (L : Lang V S X) (e f : Expr) : Prop := ∀ s, body L e s = body L f s

theorem close_ofBody (L : Lang V S X) (s : S) (o : Out V S X) :
    (L.close s o).ofBody = L.close s o.ofBody := by
  cases o with
  | val v t => simp only [Lang.close, Out.ofBody]; cases L.leave s t <;> rfl
  | ret v t => simp only [Lang.close, Out.ofBody]; cases L.leave s t <;> rfl
  | stop x => rfl

theorem run_cons (L : Lang V S X) (e : Expr) (t : List Expr) (ht : t ≠ []) (s : S) :
    run L (e :: t) s = (eval L e s).bind fun o => match o with
      | .val v s' => match L.discard v s' with
        | .inl u => run L t u
        | .inr x => some (.stop x)
      | o => some o := by
  cases t with
  | nil => exact absurd rfl ht
  | cons f t => simp only [run]

theorem run_same {L : Lang V S X} {e f : Expr} (h : Same L e f) (pre : List Expr) : ∀ s,
    (run L (pre ++ [e]) s).map Out.ofBody = (run L (pre ++ [f]) s).map Out.ofBody := by
  induction pre with
  | nil => intro s; simpa only [List.nil_append, run, body] using h s
  | cons x t ih =>
    intro s
    rw [List.cons_append, List.cons_append, run_cons _ _ _ (by simp), run_cons _ _ _ (by simp)]
    cases eval L x s with
    | none => rfl
    | some o =>
      cases o with
      | val v s' =>
        simp only [Option.bind_some]
        cases L.discard v s' with
        | inl u => exact ih u
        | inr x => rfl
      | _ => rfl

theorem block_same {L : Lang V S X} {sp : Loc} {es fs : List Expr}
    (h : ∀ s, (run L es s).map Out.ofBody = (run L fs s).map Out.ofBody) :
    Same L (.block sp es) (.block sp fs) := by
  intro s
  have := h s
  simp only [body, eval, Option.map_map]
  have hc : (Out.ofBody ∘ L.close s) = (L.close s ∘ Out.ofBody) := by
    funext o; exact close_ofBody L s o
  rw [hc, ← Option.map_map, ← Option.map_map, this]

theorem ret_same (L : Lang V S X) (l : Loc) (v : Expr) : Same L v (.ret l v) := by
  intro s
  simp only [body, eval, Option.map_map]
  congr 1
  funext o
  cases o <;> rfl

theorem run_cut (L : Lang V S X) (l : Loc) (v : Expr) (pre post : List Expr) : ∀ s,
    run L (pre ++ .ret l v :: post) s = run L (pre ++ [.ret l v]) s := by
  induction pre with
  | nil =>
    intro s
    cases post with
    | nil => rfl
    | cons f t =>
      simp only [List.nil_append, run, eval]
      cases eval L v s with
      | none => rfl
      | some o => cases o <;> rfl
  | cons x t ih =>
    intro s
    rw [List.cons_append, List.cons_append, run_cons _ _ _ (by simp), run_cons _ _ _ (by simp)]
    simp only [ih]

theorem branch_same {L : Lang V S X} {N : List Loc} {bs : List Expr}
    (h : ∀ b ∈ bs, Same L (fix N b) b) : ∀ i s,
    (branch L (fixAll N bs) i s).map Out.ofBody = (branch L bs i s).map Out.ofBody := by
  induction bs with
  | nil => intros; rfl
  | cons b t ih =>
    intro i s
    cases i with
    | zero => simpa only [fixAll, branch, body] using h b List.mem_cons_self s
    | succ i =>
      simpa only [fixAll, branch] using ih (fun b hb => h b (List.mem_cons_of_mem _ hb)) i s

theorem disjoint_of {es : List Expr} (hn : (spotsAll es).Nodup) {e f : Expr} {i j : Nat}
    (he : es[i]? = some e) (hf : es[j]? = some f) (hij : i ≠ j) {x : Loc} (hx : x ∈ spots e) :
    x ∉ spots f := by
  induction es generalizing i j with
  | nil => simp at he
  | cons a t ih =>
    simp only [spotsAll, List.nodup_append] at hn
    cases i with
    | zero =>
      cases j with
      | zero => exact absurd rfl hij
      | succ j =>
        simp only [List.getElem?_cons_zero, Option.some.injEq] at he
        subst he
        intro hxf
        exact hn.2.2 x hx x (mem_spotsAll.2 ⟨f, List.mem_of_getElem? hf, hxf⟩) rfl
    | succ i =>
      cases j with
      | zero =>
        simp only [List.getElem?_cons_zero, Option.some.injEq] at hf
        subst hf
        intro hxf
        exact hn.2.2 x hxf x (mem_spotsAll.2 ⟨e, List.mem_of_getElem? he, hx⟩) rfl
      | succ j => exact ih hn.2.1 he hf (by omega)

theorem fix_same (L : Lang V S X) (W : List Warning) (N : List Loc) (e : Expr) :
    (spots e).Nodup → (∀ x ∈ spots e, x ∈ N ↔ x ∈ new W e) → Same L (fix N e) e := by
  induction e using ind with
  | ret l v ih =>
    intro hn hN
    simp only [spots, List.nodup_cons] at hn
    have hv : fix N v = v := fix_none v fun x hx hxN => by
      have := (hN x (List.mem_cons_of_mem _ hx)).1 hxN
      exact hn.1 (newOf_sub this ▸ hx)
    simp only [fix, hv]
    split
    · exact ret_same L l v
    · intro s; rfl
  | block l es ih =>
    intro hn hN
    simp only [spots] at hn hN
    simp only [fix]
    simp only [new] at hN
    cases hf : firstReturn es with
    | some p =>
      obtain ⟨m, v⟩ := p
      rw [hf] at hN
      simp only at hN
      obtain ⟨pre, post, rfl, hp⟩ := firstReturn_some hf
      rw [spotsAll_append] at hn hN
      simp only [spotsAll, spots, List.cons_append, List.nodup_append, List.nodup_cons,
        List.mem_append, List.mem_cons] at hn hN
      have hpre : ∀ e ∈ pre, ∀ x ∈ spots e, x ∉ N := by
        intro e he x hx hxN
        have hx' := mem_spotsAll.2 ⟨e, he, hx⟩
        have := newOf_sub ((hN x (.inl hx')).1 hxN)
        exact hn.2.2 x hx' x (.inl this) rfl
      have hv : fix N v = v := fix_none v fun x hx hxN => by
        have := newOf_sub ((hN x (.inr (.inr (.inl hx)))).1 hxN)
        exact hn.2.1.1 (.inl (this ▸ hx))
      by_cases hm : spot m v ∈ N
      · rw [fixStmts_append hpre]
        simp only [fixStmts, isAt, hm, decide_true, if_true, fix, hv]
        apply block_same
        intro s
        rw [run_cut]
        exact run_same (ret_same L m v) pre s
      · have : fixStmts N (pre ++ .ret m v :: post) = pre ++ .ret m v :: post := by
          rw [fixStmts_append hpre]
          have h2 : ∀ e ∈ .ret m v :: post, ∀ x ∈ spots e, x ∉ N := by
            intro e he x hx hxN
            have hxx : x = spot m v ∨ x ∈ spots v ∨ x ∈ spotsAll post := by
              rcases List.mem_cons.1 he with rfl | he
              · rcases List.mem_cons.1 hx with h | h
                · exact .inl h
                · exact .inr (.inl h)
              · exact .inr (.inr (mem_spotsAll.2 ⟨e, he, hx⟩))
            have := newOf_sub ((hN x (.inr hxx)).1 hxN)
            exact hm (this ▸ hxN)
          have := fixStmts_append h2 []
          simpa [fixStmts] using congrArg (pre ++ ·) this
        rw [this]
        intro s; rfl
    | none =>
      rw [hf] at hN
      simp only at hN
      rcases List.eq_nil_or_concat es with rfl | ⟨pre, e, rfl⟩
      · intro s; rfl
      · rw [List.concat_eq_append] at *
        rw [newLast_append] at hN
        rw [spotsAll_append] at hn hN
        simp only [spotsAll, List.append_nil, List.nodup_append, List.mem_append] at hn hN
        have hpre : ∀ f ∈ pre, ∀ x ∈ spots f, x ∉ N := by
          intro f hf' x hx hxN
          have hx' := mem_spotsAll.2 ⟨f, hf', hx⟩
          have := (hN x (.inl hx')).1 hxN
          split at this
          · cases this
          · exact hn.2.2 x hx' x (new_sub e x this) rfl
        have hnr : isAt N e = false := by
          have := firstReturn_none.1 hf e (by simp)
          cases e with
          | ret l v => exact absurd rfl (this l v)
          | _ => rfl
        rw [fixStmts_append hpre]
        simp only [fixStmts, hnr]
        refine block_same (run_same (ih e (by simp) hn.2.1 ?_) pre)
        intro x hx
        rw [hN x (.inr hx)]
        split
        · rename_i hs
          cases e with
          | lit m u n => cases hx
          | _ => cases hs
        · rfl
  | cases l e ps bs ih ih' =>
    intro hn hN
    simp only [spots, List.nodup_append, List.mem_append, new] at hn hN
    have he : fix N e = e := fix_none e fun x hx hxN => by
      obtain ⟨b, hb, hxb⟩ := mem_newAll.1 ((hN x (.inl hx)).1 hxN)
      exact hn.2.2 x hx x (mem_spotsAll.2 ⟨b, hb, new_sub b x hxb⟩) rfl
    have hbs : ∀ b ∈ bs, Same L (fix N b) b := by
      intro b hb
      refine ih' b hb ?_ ?_
      · have := hn.2.1
        clear ih ih' hN hn
        induction bs with
        | nil => cases hb
        | cons a t iht =>
          simp only [spotsAll, List.nodup_append] at this
          rcases List.mem_cons.1 hb with rfl | hb
          · exact this.1
          · exact iht hb this.2.1
      · intro x hx
        rw [hN x (.inr (mem_spotsAll.2 ⟨b, hb, hx⟩)), mem_newAll]
        constructor
        · rintro ⟨c, hc, hxc⟩
          obtain ⟨i, hi⟩ := List.mem_iff_getElem?.1 hb
          obtain ⟨j, hj⟩ := List.mem_iff_getElem?.1 hc
          by_cases hij : i = j
          · subst hij
            rw [hi] at hj
            cases hj
            exact hxc
          · exact absurd (new_sub c x hxc) (disjoint_of hn.2.1 hi hj hij hx)
        · exact fun h => ⟨b, hb, h⟩
    simp only [fix, he]
    intro s
    simp only [body, eval]
    cases eval L e s with
    | none => rfl
    | some o =>
      cases o with
      | val v t =>
        simp only [Option.bind_some]
        cases L.choose v ps t with
        | none => rfl
        | some p =>
          have := branch_same hbs p.1 p.2
          simp only [Option.map_map]
          have hc : (Out.ofBody ∘ L.close t) = (L.close t ∘ Out.ofBody) := by
            funext o; exact close_ofBody L t o
          rw [hc, ← Option.map_map, ← Option.map_map, this]
      | _ => rfl
  | wrap l k e ih => intro hn hN s; exact ih hn hN s
  | lit l u n => intro _ _ s; rfl
  | other l k es _ =>
    intro _ hN
    have : fix N (.other l k es) = .other l k es := fix_none _ fun x hx hxN => by
      have := (hN x hx).1 hxN
      cases this
    rw [this]
    intro s; rfl

theorem dead_iff (W : List Warning) (l : Loc) : isUnreachable l W = true ↔ Dead W l := by
  simp only [isUnreachable, List.any_eq_true, Dead]
  constructor
  · rintro ⟨w, hw, h⟩
    cases w with
    | unreachable u =>
      simp only [Bool.and_eq_true, beq_iff_eq, decide_eq_true_eq] at h
      exact ⟨u, hw, h.1.1, h.1.2, h.2⟩
    | needless u => cases h
  · rintro ⟨u, hu, h1, h2, h3⟩
    exact ⟨.unreachable u, hu, by simp [h1, h2, h3]⟩

theorem mem_newOf {W : List Warning} {l : Loc} {v : Expr} {x : Loc} :
    x ∈ newOf W l v ↔ ¬ Made l ∧ ¬ Dead W l ∧ x = spot l v := by
  unfold newOf
  rw [← dead_iff, ← made_iff]
  cases l.synthesized <;> cases isUnreachable l W <;> simp

theorem mem_new (W : List Warning) (x : Loc) (e : Expr) : x ∈ new W e ↔
    ∃ l v, Tail e l v ∧ ¬ Made l ∧ ¬ Dead W l ∧ x = spot l v := by
  induction e using ind with
  | ret l v _ =>
    simp only [new, mem_newOf]
    constructor
    · exact fun h => ⟨l, v, .here l v, h⟩
    · rintro ⟨l', v', ht, h⟩
      cases ht
      exact h
  | block sp es ih =>
    simp only [new]
    cases hf : firstReturn es with
    | some p =>
      obtain ⟨m, v⟩ := p
      simp only [mem_newOf]
      obtain ⟨pre, post, rfl, hp⟩ := firstReturn_some hf
      constructor
      · exact fun h => ⟨m, v, .cut sp m v pre post hp, h⟩
      · rintro ⟨l', v', ht, h⟩
        generalize hes : pre ++ .ret m v :: post = es at ht hf
        cases ht with
        | cut _ _ _ pre' post' hp' =>
          rw [firstReturn_append hp'] at hf
          cases hf
          exact h
        | last _ _ _ pre' e hp' hn ht =>
          cases e with
          | ret l2 v2 =>
            cases ht
            rw [firstReturn_append hp'] at hf
            cases hf
            exact h
          | _ =>
            rw [firstReturn_none.2] at hf
            · cases hf
            · intro y hy
              rcases List.mem_append.1 hy with hy | hy
              · exact hp' y hy
              · rw [List.mem_singleton.1 hy]
                intro a b hab
                cases hab
    | none =>
      simp only
      have hno := firstReturn_none.1 hf
      rcases List.eq_nil_or_concat es with rfl | ⟨pre, e, rfl⟩
      · simp only [newLast, List.not_mem_nil, false_iff]
        rintro ⟨l', v', ht, -⟩
        generalize hes : ([] : List Expr) = es at ht
        cases ht <;> simp at hes
      · rw [List.concat_eq_append] at *
        rw [newLast_append]
        constructor
        · intro hx
          split at hx
          · cases hx
          · rename_i hs
            obtain ⟨l, v, ht, h⟩ := (ih e (by simp)).1 hx
            refine ⟨l, v, .last sp l v pre e (fun y hy => hno y (by simp [hy])) ?_ ht, h⟩
            rintro m n hm rfl
            exact hs (by simp [synthesizedUnit, (made_iff m).2 hm])
        · rintro ⟨l', v', ht, h⟩
          generalize hes : pre ++ [e] = es at ht
          cases ht with
          | cut _ _ _ pre' post' hp' =>
            exact absurd rfl (hno (.ret l' v') (by rw [hes]; simp) l' v')
          | last _ _ _ pre' e' hp' hn ht =>
            obtain ⟨rfl, he⟩ := List.append_inj' hes rfl
            cases he
            have hs : synthesizedUnit e = false := by
              cases e with
              | lit m u n =>
                cases u with
                | false => simp [synthesizedUnit]
                | true =>
                  by_contra hc
                  simp only [synthesizedUnit, Bool.and_true, Bool.not_eq_false] at hc
                  exact hn m n ((made_iff m).1 hc) rfl
              | _ => rfl
            simp only [hs]
            exact (ih e (by simp)).2 ⟨l', v', ht, h⟩
  | cases sp e ps bs _ ih =>
    simp only [new, mem_newAll]
    constructor
    · rintro ⟨b, hb, hx⟩
      obtain ⟨l, v, ht, h⟩ := (ih b hb).1 hx
      exact ⟨l, v, .branch sp l v e b ps bs hb ht, h⟩
    · rintro ⟨l, v, ht, h⟩
      cases ht with
      | branch _ _ _ _ b _ _ hb ht => exact ⟨b, hb, (ih b hb).2 ⟨l, v, ht, h⟩⟩
  | wrap sp k e ih =>
    simp only [new, ih]
    constructor
    · rintro ⟨l, v, ht, h⟩
      exact ⟨l, v, .inside sp l v e k ht, h⟩
    · rintro ⟨l, v, ht, h⟩
      cases ht with
      | inside _ _ _ _ _ ht => exact ⟨l, v, ht, h⟩
  | lit l u n =>
    simp only [new, List.not_mem_nil, false_iff]
    rintro ⟨l', v', ht, -⟩
    cases ht
  | other l k es _ =>
    simp only [new, List.not_mem_nil, false_iff]
    rintro ⟨l', v', ht, -⟩
    cases ht

/-! ## The property -/

/-- **Only new warnings at returns**: the lint adds warnings about needless returns after those that
are there, and the places are exactly those of the returns of the program in tail position outside
of unreachable code. -/
theorem C95_exact (e : Expr) (W : List Warning) : ∃ N : List Loc,
    report e W = W ++ N.map .needless ∧ ∀ x, x ∈ N ↔
      ∃ l v, Tail e l v ∧ ¬ Made l ∧ ¬ Dead W l ∧ x = spot l v :=
  ⟨new W e, by simpa using report_eq W e [], fun x => mem_new W x e⟩

/-- **Needless returns can be removed**: when the returns at all new places, and the statements after
them, are removed, the function does the same, whatever the other constructs do. -/
theorem C95_removable (L : Lang V S X) {e : Expr} {W : List Warning} {N : List Loc}
    (h : report e W = W ++ N.map .needless) (hu : (spots e).Nodup) (s : S) :
    body L (fix N e) s = body L e s := by
  have h1 : report e W = W ++ (new W e).map .needless := by simpa using report_eq W e []
  rw [h1] at h
  have h2 : new W e = N :=
    List.map_injective_iff.2 (fun a b hab => by cases hab; rfl) (List.append_cancel_left h)
  subst h2
  exact fix_same L W _ e hu (fun x _ => Iff.rfl) s

/-! ## A program -/

namespace Example

/-- `{ other { return 1 }; if 2 { return 3; 4 } else { return 5 } }` -/
def prog : Expr :=
  .block ⟨1, 0, 60⟩
    [.other ⟨1, 2, 18⟩ 0 [.ret ⟨1, 10, 18⟩ (.lit ⟨1, 17, 18⟩ false 1)],
     .cases ⟨1, 20, 58⟩ (.lit ⟨1, 23, 24⟩ false 2) [0]
      [.block ⟨1, 25, 40⟩ [.ret ⟨1, 26, 34⟩ (.lit ⟨1, 33, 34⟩ false 3), .lit ⟨1, 36, 37⟩ false 4],
       .block ⟨1, 46, 58⟩ [.ret ⟨1, 48, 56⟩ (.lit ⟨1, 55, 56⟩ false 5)]]]

example : report prog [] = [] ++ [⟨1, 26, 34⟩, ⟨1, 48, 56⟩].map .needless := by decide

example : (spots prog).Nodup := by decide

/-- Numbers; the other construct runs its part, and a return ends it for even states only. -/
def lang : Lang Nat Nat Nat where
  unit := 0
  lit := id
  choose := fun v _ s => some (if v = 2 ∧ s = 1 then 0 else 1, s)
  noMatch := 7
  leave := fun _ s => .inl s
  discard := fun _ s => .inl s
  other := fun _ ps s => match ps with
    | [p] => if s % 2 = 0 then p s else some (.val 0 s)
    | _ => none

/-- The return within the other construct is needed, and the statement after a return is not run. -/
example : body lang prog 0 = some (.val 1 0) ∧ body lang prog 1 = some (.val 3 1) ∧
    body lang prog 3 = some (.val 5 3) ∧
    body lang (fix [⟨1, 10, 18⟩] prog) 0 = some (.val 5 0) := by decide

end Example

end Ferlium.Lint
