import Verif.Proofs.BorrowCalls

/-!
# C27: places which are accepted as not overlapping do not influence each other

The statements speak about reading and writing places of a store of value trees.  `own` is the
environment of a function body in which every variable has its own storage; that two reference
parameters do not share storage is what the same check establishes at the call.
-/

namespace Ferlium.Borrow

/-- A world in which the functions returning places are the indexing of arrays, and fields are stored
in the order of their names. -/
def arrays : World where
  fieldAt _ n := n
  address _ _ rs _ := match rs with
    | .val (.leaf n) :: _ => [n.toNat]
    | _ => [0]

theorem arrays_lawful : arrays.Lawful where
  fields _ _ _ h := h
  same _ _ _ _ _ _ _ _ := rfl
  different _ _ _ i j _ _ _ _ h := by
    simp only [arrays, Int.toNat_natCast]
    exact not_prefix_single h

/-! ### Two places -/

/-- **C27.** Two place expressions whose paths do not overlap: writing through one never changes what
is read through the other, whatever the stores in which the two are evaluated, hence whatever the
values of the indices. -/
theorem C27_places_separate {W : World} (hW : W.Lawful) {late : Bool} {e e' : Expr} {p q : Path}
    (he : shaped late e = true) (he' : shaped late e' = true)
    (hp : path late e = some (some p)) (hq : path late e' = some (some q))
    (hno : overlap p q = false) {a a' b b' : Store} {l m : Loc}
    (h : eval W e own a (some (.place l)) a') (h' : eval W e' own b (some (.place m)) b')
    (s : Store) (w : Val) :
    read (write s l w) m = read s m ∧ read (write s m w) l = read s l := by
  have hl : Covers W own p l := path_reaches e he hp h
  have hm : Covers W own q m := path_reaches e' he' hq h'
  have hd := guard_own hW hm p l hno hl
  exact ⟨read_write hd s w, read_write hd.symm s w⟩

/-- **C27.** The `MutableRef` arguments of an accepted call are exclusive: writing through one never
changes what is read through another. -/
theorem C27_mutable_arguments_exclusive {W : World} (hW : W.Lawful) {args : Args}
    (hc : checkArguments args.toList = some true)
    (hs : ∀ e, (.mutableRef, e) ∈ args.toList → shaped true e = true)
    {a b : Store} {rs : Results} (h : evalSeq W args own a (some rs) b)
    {i j : Nat} (hij : i ≠ j) {ev ev' : Bool} {l m : Loc}
    (hi : rs[i]? = some (.mutableRef, ev, .place l))
    (hj : rs[j]? = some (.mutableRef, ev', .place m)) (s : Store) (w : Val) :
    read (write s l w) m = read s m := by
  unfold checkArguments at hc
  simp only [Option.map_eq_some_iff] at hc
  obtain ⟨ps, hps, hno⟩ := hc
  obtain ⟨e, a1, b1, he, hev⟩ := evalSeq_get args h i _ hi
  obtain ⟨e', a2, b2, he', hev'⟩ := evalSeq_get args h j _ hj
  have hse := hs e (List.mem_of_getElem? he)
  have hse' := hs e' (List.mem_of_getElem? he')
  rcases Nat.lt_or_gt_of_ne hij with hlt | hlt
  · obtain ⟨p, q, hp, hq, hno⟩ := check_pair hps hno i j e e' hlt he he'
    exact (C27_places_separate hW hse hse' hp hq hno hev hev' s w).1
  · obtain ⟨p, q, hp, hq, hno⟩ := check_pair hps hno j i e' e hlt he' he
    exact (C27_places_separate hW hse' hse hp hq hno hev' hev s w).2

mutual
/-- A call with these arguments occurs in the expression, at any depth. -/
def Calls (args : Args) : Expr → Prop
  | .apply _ _ pre as => args = as ∨ CallsIn args pre ∨ CallsIn args as
  | .project e _ => Calls args e
  | .field e _ => Calls args e
  | .block body => CallsIn args body
  | .withPlace p _ body => Calls args p ∨ Calls args body
  | .assign p v => Calls args p ∨ Calls args v
  | .store _ v => Calls args v
  | .drop t => Calls args t
  | .other children => CallsIn args children
  | .load _ => False
  | .int _ => False
  | .immediate => False
  | .evidence => False
  | .take _ => False
  | .method _ => False
def CallsIn (args : Args) : Args → Prop
  | .nil => False
  | .cons _ e rest => Calls args e ∨ CallsIn args rest
end

theorem andThen_true {a b : Option Bool} : andThen a b = some true ↔ a = some true ∧ b = some true := by
  unfold andThen
  split <;> simp_all

mutual
theorem check_calls : ∀ e : Expr, check e = some true ↔ ∀ args, Calls args e → checkArguments args.toList = some true
  | .apply _ _ pre as => by
    rw [check, andThen_true, andThen_true, checkAll_calls pre, checkAll_calls as]
    simp only [Calls]
    constructor
    · rintro ⟨h1, h2, h3⟩ args (rfl | h | h)
      exacts [h1, h2 _ h, h3 _ h]
    · exact fun h => ⟨h _ (.inl rfl), fun a ha => h a (.inr (.inl ha)), fun a ha => h a (.inr (.inr ha))⟩
  | .project e _ => by rw [check, check_calls e]; simp only [Calls]
  | .field e _ => by rw [check, check_calls e]; simp only [Calls]
  | .block body => by rw [check, checkAll_calls body]; simp only [Calls]
  | .withPlace p _ body => by
    rw [check, andThen_true, check_calls p, check_calls body]
    simp only [Calls]
    exact ⟨fun h a ha => ha.elim (h.1 a) (h.2 a), fun h => ⟨fun a ha => h a (.inl ha), fun a ha => h a (.inr ha)⟩⟩
  | .assign p v => by
    rw [check, andThen_true, check_calls p, check_calls v]
    simp only [Calls]
    exact ⟨fun h a ha => ha.elim (h.1 a) (h.2 a), fun h => ⟨fun a ha => h a (.inl ha), fun a ha => h a (.inr ha)⟩⟩
  | .store _ v => by rw [check, check_calls v]; simp only [Calls]
  | .drop t => by rw [check, check_calls t]; simp only [Calls]
  | .other children => by rw [check, checkAll_calls children]; simp only [Calls]
  | .load _ => by simp [check, Calls]
  | .int _ => by simp [check, Calls]
  | .immediate => by simp [check, Calls]
  | .evidence => by simp [check, Calls]
  | .take _ => by simp [check, Calls]
  | .method _ => by simp [check, Calls]
theorem checkAll_calls : ∀ as : Args, checkAll as = some true ↔ ∀ args, CallsIn args as → checkArguments args.toList = some true
  | .nil => by simp [checkAll, CallsIn]
  | .cons _ e rest => by
    rw [checkAll, andThen_true, check_calls e, checkAll_calls rest]
    simp only [CallsIn]
    exact ⟨fun h a ha => ha.elim (h.1 a) (h.2 a), fun h => ⟨fun a ha => h a (.inl ha), fun a ha => h a (.inr ha)⟩⟩
end

/-- **C27.** A body is accepted exactly if the arguments of every call in it are, at any depth, so that
`C27_mutable_arguments_exclusive` holds for all of them. -/
theorem C27_every_call (e : Expr) :
    check e = some true ↔ ∀ args, Calls args e → checkArguments args.toList = some true :=
  check_calls e

/-- A refused call deep inside of a body. -/
example : let args : Args := .cons .mutableRef (.load 0) (.cons .mutableRef (.load 0) .nil)
    Calls args (.block (.cons .byLet (.assign (.load 1) (.apply 3 false .nil args)) .nil)) ∧
      checkArguments args.toList = some false := by
  refine ⟨?_, by decide⟩
  simp [Calls, CallsIn]

/-- `swap(v.0[1], v.0[i])` is refused, `swap(v.0[1], v.0[2])` and `swap(v.0[i], v.1)` are
accepted. -/
example :
    let part := fun e => Expr.apply 0 true .nil (.cons .byLet (.project (.load 0) 0) (.cons .byLet e .nil))
    checkArguments [(.mutableRef, part (.int 1)), (.mutableRef, part (.load 1))] = some false ∧
    checkArguments [(.mutableRef, part (.int 1)), (.mutableRef, part (.int 2))] = some true ∧
    checkArguments [(.mutableRef, part (.load 1)), (.mutableRef, .project (.load 0) 1)]
      = some true := by decide

/-- The two places of `swap(v[1], v[2])`: the hypotheses of the theorem hold and the places hold
different values. -/
example : ∃ (args : Args) (rs : Results) (s : Store) (l m : Loc),
    checkArguments args.toList = some true ∧
    (∀ e, (.mutableRef, e) ∈ args.toList → shaped true e = true) ∧
    evalSeq arrays args own s (some rs) s ∧
    rs[0]? = some (.mutableRef, false, .place l) ∧ rs[1]? = some (.mutableRef, false, .place m) ∧
    read s l = some (.leaf 11) ∧ read s m = some (.leaf 12) := by
  refine ⟨.cons .mutableRef (.apply 0 true .nil (.cons .byLet (.load 0) (.cons .byLet (.int 1) .nil)))
    (.cons .mutableRef (.apply 0 true .nil (.cons .byLet (.load 0) (.cons .byLet (.int 2) .nil))) .nil),
    [(.mutableRef, false, .place ⟨0, [1]⟩), (.mutableRef, false, .place ⟨0, [2]⟩)],
    fun _ => .node [.leaf 10, .leaf 11, .leaf 12], ⟨0, [1]⟩, ⟨0, [2]⟩, by decide, ?_, ?_, rfl, rfl,
    rfl, rfl⟩
  · intro e he
    simp only [Args.toList, List.mem_cons, Prod.mk.injEq, true_and, List.not_mem_nil, or_false] at he
    rcases he with rfl | rfl <;> rfl
  · have hcall : ∀ (n : Int) (s : Store), eval arrays
        (.apply 0 true .nil (.cons .byLet (.load 0) (.cons .byLet (.int n) .nil))) own s
        (some (.place ⟨0, [n.toNat]⟩)) s := by
      intro n s
      refine ⟨some [], s, ⟨rfl, rfl⟩, some [(.byLet, false, .place ⟨0, []⟩),
        (.byLet, false, .val (.leaf n))], s, ?_, .refl, .inr ?_⟩
      · exact ⟨_, s, ⟨rfl, rfl⟩, _, ⟨_, s, ⟨rfl, rfl⟩, _, ⟨rfl, rfl⟩, rfl⟩, rfl⟩
      · rfl
    exact ⟨_, _, hcall 1 _, _, ⟨_, _, hcall 2 _, _, ⟨rfl, rfl⟩, rfl⟩, rfl⟩

/-! ### Arguments which are only read -/

/-- **C27.** A place which is passed without being copied keeps its value from the moment the
argument is evaluated until all arguments are evaluated, if it is not listed together with a later
argument. -/
theorem C27_later_arguments_keep {W : World} (hW : W.Lawful) {before after : Args} {e : Expr}
    {p : Path} {pairs : List (Nat × Nat)}
    (hs : shaped false e = true) (hp : path false e = some (some p))
    (hc : clearAll p after = true)
    (hl : letLater 0 (before.append (.cons .byLet e after)).toList = some pairs)
    (hn : ∀ j, (before.toList.length, j) ∉ pairs)
    {s1 s2 s3 : Store} {l : Loc} {rs : Option Results}
    (he : eval W e own s1 (some (.place l)) s2) (ha : evalSeq W after own s2 rs s3) :
    read s3 l = read s2 l := by
  rw [toList_append] at hl
  simp only [Args.toList] at hl
  obtain ⟨q, hq, hcov⟩ := observes_of_place hs rfl he (letLater_observes _ hl)
  have hqp : q = p := by
    have hpr := placeRef_of_place e he
    unfold observes at hq
    split at hq
    · rw [hp] at hq; simpa using hq.symm
    · simp at hq
  subst hqp
  have hmay := letLater_spec hq before.toList hl (by simpa using hn)
  exact anyMayWrite_seq after (guard_own hW hcov) hc (anyMayWrite_of_all after hmay) ha

/-- **C27.** During the call, too: if the argument is in neither list, its place holds at every moment
of the call the value it had when the argument was evaluated. -/
theorem C27_let_argument_stable {W : World} (hW : W.Lawful) {before after : Args} {e : Expr}
    {p : Path} {pairs pairs' : List (Nat × Nat)}
    (hs : shaped false e = true) (hp : path false e = some (some p))
    (hsa : shapedArgs (before.append (.cons .byLet e after)) = true)
    (hc : clearAll p after = true)
    (hl : letLater 0 (before.append (.cons .byLet e after)).toList = some pairs)
    (hn : ∀ j, (before.toList.length, j) ∉ pairs)
    (hm : letMutable (before.append (.cons .byLet e after)).toList = some pairs')
    (hn' : ∀ j, (before.toList.length, j) ∉ pairs')
    {s0 s1 s2 s3 s4 : Store} {l : Loc} {rs rs0 rs1 : Results} {ev : Bool}
    (hb : evalSeq W before own s0 (some rs0) s1)
    (he : eval W e own s1 (some (.place l)) s2) (ha : evalSeq W after own s2 (some rs1) s3)
    (hrs : rs = rs0 ++ (.byLet, ev, .place l) :: rs1)
    (hcall : Relation.ReflTransGen (CalleeWrite rs) s3 s4) :
    read s4 l = read s2 l := by
  have h1 := C27_later_arguments_keep hW hs hp hc hl hn he ha
  refine Eq.trans ?_ h1
  have hlead : Covers W own p l := path_reaches e hs hp he
  have hg := guard_own hW hlead
  have hobs : observes (.byLet, e) = some (some p) := by
    rw [toList_append] at hl
    simp only [Args.toList] at hl
    obtain ⟨q, hq, _⟩ := observes_of_place hs rfl he (letLater_observes _ hl)
    rw [hq]
    unfold observes at hq
    split at hq
    · rw [hp] at hq; exact hq.symm
    · simp at hq
  rw [toList_append] at hm
  simp only [Args.toList] at hm
  have hhit := letMutable_spec hobs hm hn'
  have hsplit : ∀ (xs ys : Args), shapedArgs (xs.append ys) = true →
      shapedArgs xs = true ∧ shapedArgs ys = true := by
    intro xs ys
    induction xs using Args.rec (motive_1 := fun _ => True) with
    | load | project | field | apply | int | immediate | evidence | block | withPlace | assign
    | store | take | drop | method | other => trivial
    | nil => intro h; exact ⟨rfl, h⟩
    | cons q e rest _ ih =>
      intro h
      cases q with
      | byLet =>
        simp only [Args.append, shapedArgs] at h ⊢
        exact ih h
      | mutableRef =>
        simp only [Args.append, shapedArgs, Bool.and_eq_true] at h ⊢
        exact ⟨⟨h.1, (ih h.2).1⟩, (ih h.2).2⟩
  obtain ⟨hs1, hs2⟩ := hsplit before _ hsa
  simp only [shapedArgs] at hs2
  refine callee_keeps (l := l) ?_ hcall
  intro ev' k hk
  rw [hrs] at hk
  rcases List.mem_append.1 hk with hk | hk
  · exact args_disjoint before hg hs1 (argsHit_of_all before
      (fun a ha hmut => hhit a (List.mem_append_left _ ha) hmut)) hb hk
  · rcases List.mem_cons.1 hk with hk | hk
    · simp at hk
    · exact args_disjoint after hg hs2 (argsHit_of_all after
        (fun a ha' hmut => hhit a (List.mem_append_right _ (List.mem_cons_of_mem _ ha')) hmut)) ha hk

/-- **C27.** A function which is called without being copied is not changed by the evaluation of the
arguments, nor by the call. -/
theorem C27_callee_stable {W : World} (hW : W.Lawful) {callee : Expr} {args : Args} {p : Path}
    (hs : shaped false callee = true) (hp : path false callee = some (some p))
    (hsa : shapedArgs args = true) (hc : clearAll p args = true)
    (hno : calleeOverlaps callee args.toList = some false)
    {s0 s1 s2 s3 : Store} {l : Loc} {rs : Results}
    (hf : eval W callee own s0 (some (.place l)) s1) (ha : evalSeq W args own s1 (some rs) s2)
    (hcall : Relation.ReflTransGen (CalleeWrite rs) s2 s3) :
    read s2 l = read s1 l ∧ read s3 l = read s1 l := by
  have hg := guard_own hW (path_reaches callee hs hp hf : Covers W own p l)
  unfold calleeOverlaps at hno
  rw [if_pos (placeRef_of_place callee hf), hp] at hno
  have hall := callee_fold hno
  have h1 : Keeps l s1 s2 := anyMayWrite_seq args hg hc
    (anyMayWrite_of_all args fun a ha => (hall a ha).1) ha
  have h2 : Keeps l s2 s3 := callee_keeps (fun ev k hk => args_disjoint args hg hsa
    (argsHit_of_all args fun a ha hm => (hall a ha).2 hm) ha hk) hcall
  exact ⟨h1, h2.trans h1⟩

/-- `f(v[0], { v[1] = 5; 1 }, &mut v[2])`: the first argument need not be copied; with `v[i] = 5` or
`&mut v[i]` it must be. -/
example :
    let at' := fun e => Expr.apply 0 true .nil (.cons .byLet (.load 0) (.cons .byLet e .nil))
    let args := fun e e' => [(Passing.byLet, at' (.int 0)),
      (.byLet, .block (.cons .byLet (.assign (at' e) (.int 5)) (.cons .byLet (.int 1) .nil))),
      (.mutableRef, at' e')]
    letLater 0 (args (.int 1) (.int 2)) = some [] ∧ letMutable (args (.int 1) (.int 2)) = some [] ∧
    letLater 0 (args (.load 1) (.int 2)) = some [(0, 1)] ∧
    letMutable (args (.int 1) (.load 1)) = some [(0, 2)] := by decide

/-- The hypotheses of `C27_let_argument_stable` on the list of arguments hold for that call. -/
example :
    let at' := fun e => Expr.apply 0 true .nil (.cons .byLet (.load 0) (.cons .byLet e .nil))
    let after : Args := .cons .byLet
      (.block (.cons .byLet (.assign (at' (.int 1)) (.int 5)) (.cons .byLet (.int 1) .nil)))
      (.cons .mutableRef (at' (.int 2)) .nil)
    shaped false (at' (.int 0)) = true ∧ path false (at' (.int 0)) = some (some ⟨0, [.index 0]⟩) ∧
    shapedArgs (Args.append .nil (.cons .byLet (at' (.int 0)) after)) = true ∧
    clearAll ⟨0, [.index 0]⟩ after = true := by decide

/-! ### Where the check fails -/

/-- The witness of the following statement: `add_to_both(a->[g], a->[g])` for a variable `a` (local
0) and a subscript `g` which returns a place inside its argument.  Locals from 1 on are new. -/
def bothDriven : Expr :=
  drivenCall 7 1 id [(.mutableRef, 0, [.named 3 .nil]), (.mutableRef, 0, [.named 3 .nil])]

/-- **C27 does not hold** for arguments which go through named subscripts: the compiler prepares each
of them in a `WithPlace` around the call, and inside the call compares the names of the bindings only.
`add_to_both(a->[g], a->[g])` is accepted, but both arguments are the same place, although the world
is lawful.  Without the bindings the same two arguments are refused. -/
theorem C27_driven_arguments_violated :
    ∃ (place : Expr) (x y : Var) (args : Args) (l : Loc) (s : Store) (rs : Results) (w : Val),
      arrays.Lawful ∧
      bothDriven = .withPlace place x (.withPlace place y (.apply 7 false .nil args)) ∧
      check bothDriven = some true ∧
      eval arrays place own s (some (.place l)) s ∧
      eval arrays place (own.bind x l) s (some (.place l)) s ∧
      evalSeq arrays args ((own.bind x l).bind y l) s (some rs) s ∧
      rs = [(.mutableRef, false, .place l), (.mutableRef, false, .place l)] ∧
      read (write s l w) l ≠ read s l ∧
      checkArguments [(.mutableRef, place), (.mutableRef, place)] = some false := by
  have hplace : ∀ (env : Env) (s : Store), env 0 = ⟨0, []⟩ →
      eval arrays (.apply 3 true .nil (.cons .mutableRef (.load 0) .nil)) env s
        (some (.place ⟨0, [0]⟩)) s := by
    intro env s h0
    refine ⟨some [], s, ⟨rfl, rfl⟩, some [(.mutableRef, false, .place ⟨0, []⟩)], s, ?_, .refl,
      .inr rfl⟩
    exact ⟨some (.place ⟨0, []⟩), s, ⟨rfl, by rw [h0]⟩, some [], ⟨rfl, rfl⟩, rfl⟩
  refine ⟨.apply 3 true .nil (.cons .mutableRef (.load 0) .nil), 1, 2,
    .cons .mutableRef (.load 1) (.cons .mutableRef (.load 2) .nil), ⟨0, [0]⟩,
    fun _ => .node [.leaf 4], _, .leaf 5, arrays_lawful, rfl, by decide, hplace _ _ rfl,
    hplace _ _ rfl, ?_, rfl, ?_, by decide⟩
  · exact ⟨_, _, ⟨rfl, rfl⟩, _, ⟨_, _, ⟨rfl, rfl⟩, _, ⟨rfl, rfl⟩, rfl⟩, rfl⟩
  · simp [read, write, Val.get, Val.set]

/-- **C27 does not hold** for an argument which is only read, either: in `f(a->[g], a.0)`, with the
first argument written by `f`, the second argument need not be copied according to the check, yet it
is the same place. -/
theorem C27_driven_let_violated :
    ∃ (place : Expr) (args : Args) (l : Loc) (s : Store) (rs : Results) (s' : Store),
      arrays.Lawful ∧
      drivenCall 7 1 id [(.mutableRef, 0, [.named 3 .nil]), (.byLet, 0, [.project 0])]
        = .withPlace place 1 (.apply 7 false .nil args) ∧
      letLater 0 args.toList = some [] ∧ letMutable args.toList = some [] ∧
      eval arrays place own s (some (.place l)) s ∧
      evalSeq arrays args (own.bind 1 l) s (some rs) s ∧
      rs = [(.mutableRef, false, .place l), (.byLet, false, .place l)] ∧
      CalleeWrite rs s s' ∧ read s' l ≠ read s l := by
  refine ⟨.apply 3 true .nil (.cons .mutableRef (.load 0) .nil),
    .cons .mutableRef (.load 1) (.cons .byLet (.project (.load 0) 0) .nil), ⟨0, [0]⟩,
    fun _ => .node [.leaf 4], _, write (fun _ => .node [.leaf 4]) ⟨0, [0]⟩ (.leaf 5),
    arrays_lawful, rfl, by decide, by decide, ?_, ?_, rfl, ?_, ?_⟩
  · refine ⟨some [], _, ⟨rfl, rfl⟩, some [(.mutableRef, false, .place ⟨0, []⟩)], _, ?_, .refl,
      .inr rfl⟩
    exact ⟨_, _, ⟨rfl, rfl⟩, _, ⟨rfl, rfl⟩, rfl⟩
  · exact ⟨_, _, ⟨rfl, rfl⟩, _, ⟨_, _, ⟨some (.place ⟨0, []⟩), ⟨rfl, rfl⟩, rfl⟩, _, ⟨rfl, rfl⟩,
      rfl⟩, rfl⟩
  · exact ⟨false, ⟨0, [0]⟩, [], .leaf 5, by simp, rfl⟩
  · simp [read, write, Val.get, Val.set]

/-- The world of a user-defined subscript which returns the first element whatever its index. -/
def constant : World where
  fieldAt _ n := n
  address _ _ _ _ := [0]

/-- **C27 does not hold** for user-defined subscripts without the assumption on indices: a subscript
may return the same place for different indices, so that `swap(v->[g](0), v->[g](1))` is accepted
and both arguments are the same place.  The compiler does not check such an assumption. -/
theorem C27_subscript_index_violated :
    ∃ (args : Args) (rs : Results) (l : Loc) (s : Store) (w : Val),
      checkArguments args.toList = some true ∧
      (∀ e, (.mutableRef, e) ∈ args.toList → shaped true e = true) ∧
      evalSeq constant args own s (some rs) s ∧
      rs = [(.mutableRef, false, .place l), (.mutableRef, false, .place l)] ∧
      read (write s l w) l ≠ read s l := by
  have hcall : ∀ (n : Int) (s : Store), eval constant
      (.apply 3 true .nil (.cons .mutableRef (.load 0) (.cons .byLet (.int n) .nil))) own s
      (some (.place ⟨0, [0]⟩)) s := by
    intro n s
    refine ⟨some [], s, ⟨rfl, rfl⟩, some [(.mutableRef, false, .place ⟨0, []⟩),
      (.byLet, false, .val (.leaf n))], s, ?_, .refl, .inr rfl⟩
    exact ⟨_, s, ⟨rfl, rfl⟩, _, ⟨_, s, ⟨rfl, rfl⟩, _, ⟨rfl, rfl⟩, rfl⟩, rfl⟩
  refine ⟨.cons .mutableRef (.apply 3 true .nil (.cons .mutableRef (.load 0)
      (.cons .byLet (.int 0) .nil)))
    (.cons .mutableRef (.apply 3 true .nil (.cons .mutableRef (.load 0)
      (.cons .byLet (.int 1) .nil))) .nil), _, ⟨0, [0]⟩, fun _ => .node [.leaf 4], .leaf 5,
    by decide, ?_, ⟨_, _, hcall 0 _, _, ⟨_, _, hcall 1 _, _, ⟨rfl, rfl⟩, rfl⟩, rfl⟩, rfl, ?_⟩
  · intro e he
    simp only [Args.toList, List.mem_cons, Prod.mk.injEq, true_and, List.not_mem_nil, or_false] at he
    rcases he with rfl | rfl <;> rfl
  · simp [read, write, Val.get, Val.set]

/-- The check after elaboration panics on an index which is a literal of another type than `int`,
where the check before elaboration takes it for an unknown index. -/
theorem C27_late_index_panics (f : Nat) (x : Var) :
    let e : Expr := .apply f true .nil (.cons .mutableRef (.load x) (.cons .byLet .immediate .nil))
    path false e = some (some ⟨x, [.dyn]⟩) ∧ checkArguments [(.mutableRef, e)] = none := by
  refine ⟨rfl, rfl⟩

end Ferlium.Borrow
