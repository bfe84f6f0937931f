import Verif.Proofs.EffectBound

/-!
C71, C72, C73: inferred effects against runs.
-/
namespace Ferlium.EffInfer

/-- A native call with one primitive effect. -/
def nat (p : Prim) : Stmt := .native (Prims.one p)

/-! ## C71: what a function does is within its inferred effects -/

/-- **C71** (partial: programs of the direct fragment). If inference accepts a program, a call of one
of its functions performs only effects of its inferred type, where the effect variables of the type
stand for any effects `allowed` such that each callback stays within the effects of its
parameter. -/
theorem C71_run_within_inferred_effects_partial {groups : List (List Decl)} (hD : Direct 0 groups) {S : List Scheme}
    (h : infer groups = some S) {i : Nat} {d : Decl} (hd : groups.flatten[i]? = some d) :
    ∃ s, S[i]? = some s ∧ ∀ (allowed : Nat → Prim → Prop) (cs : List Clo),
      List.Forall₂ (fun c e => ∀ n, ∀ p ∈ c.run groups.flatten n, den allowed e p) cs s.params →
      ∀ n, ∀ p ∈ (run groups.flatten n cs d.body).1, den allowed s.eff p := by
  have hdes := inferFrom_described groups described_nil hD h
  rw [List.nil_append] at hdes
  obtain ⟨s, hs, hok⟩ := hdes.wellEff i d hd
  refine ⟨s, hs, fun allowed cs hcs n p hp => ?_⟩
  refine run_sound hdes.wellEff n cs (s.params.map (den allowed)) d.body _ ?_ (hok allowed) p hp
  rw [List.forall₂_map_right_iff]
  exact hcs.imp fun c e h m _ p hp => h m p hp

/-- In particular a function without callbacks does only the primitive effects of its type, and a
function of a type without effects does nothing. -/
theorem C71_pure_functions_do_nothing_partial {groups : List (List Decl)} (hD : Direct 0 groups) {S : List Scheme}
    (h : infer groups = some S) {i : Nat} {d : Decl} (hd : groups.flatten[i]? = some d) (hp : d.params = []) :
    ∃ s, S[i]? = some s ∧ (∀ n, ∀ p ∈ (run groups.flatten n [] d.body).1, s.eff.prims.has p = true) ∧
      (s.eff = Eff.empty → ∀ n, (run groups.flatten n [] d.body).1 = []) := by
  have an : Annotated groups.flatten S := by
    have key : ∀ (gs : List (List Decl)) (P : List Decl) (done S : List Scheme), Annotated P done →
        inferFrom done gs = some S → Annotated (P ++ gs.flatten) S := by
      intro gs
      induction gs with
      | nil =>
        intro P done S ha h
        simp only [inferFrom, Option.some.injEq] at h
        subst h; simpa using ha
      | cons ds gs ih =>
        intro P done S ha h
        simp only [inferFrom] at h
        split at h
        · cases h
        rename_i ss hg
        have := ih _ _ _ (inferGroup_annotated ha hg).1 h
        simpa [List.append_assoc] using this
    simpa using key groups [] [] S ⟨rfl, fun _ h => (by cases h), fun i d s hd => by simp at hd⟩ h
  obtain ⟨s, hs, k⟩ := C71_run_within_inferred_effects_partial hD h hd
  have hsp : s.params = [] := by
    have := (an.params i d s hd hs).1
    rw [hp] at this
    exact List.length_eq_zero_iff.mp this
  have main : ∀ n, ∀ p ∈ (run groups.flatten n [] d.body).1, s.eff.prims.has p = true := by
    intro n p hpn
    rcases k (fun _ _ => False) [] (by rw [hsp]; exact .nil) n p hpn with h | ⟨_, _, h⟩
    · exact h
    · exact h.elim
  refine ⟨s, hs, main, fun he n => ?_⟩
  rw [List.eq_nil_iff_forall_not_mem]
  intro p hpn
  have := main n p hpn
  rw [he] at this
  simp [Eff.empty, Prims.has_none] at this

/-- `fn app(f) { f() }`. -/
def app : Decl := ⟨[none], [.callParam 0]⟩

/-- `fn main() { app(|| { app(|| write()); app(|| read()) }) }`. -/
def nested : Decl := ⟨[], [.callFn 0 [.lam [.callFn 0 [.lam [nat .write]], .callFn 0 [.lam [nat .read]]]]]⟩

/-- **C71 is violated** by a closure which itself gives closures to functions: the function is
accepted with no effects, and its run writes and reads. -/
theorem C71_nested_closures_violated :
    infer [[app], [nested]] = some [⟨[Eff.var 1], Eff.var 1⟩, ⟨[], Eff.empty⟩] ∧
      (run [app, nested] 20 [] nested.body).1 = [.write, .read] := by
  refine ⟨?_, ?_⟩ <;> decide +kernel

/-- `fn both(g, h) { app(|| { g(); h() }) }`. -/
def both : Decl := ⟨[none, none], [.callFn 0 [.lam [.callParam 0, .callParam 1]]]⟩

/-- **C71 is violated** by a closure which calls two callbacks: `both` is accepted with no effects, and
`both(|| write(), || ())` writes. -/
theorem C71_closure_over_callbacks_violated :
    infer [[app], [both], [⟨[], [.callFn 1 [.lam [nat .write], .lam []]]⟩]] =
        some [⟨[Eff.var 1], Eff.var 1⟩, ⟨[Eff.var 4, Eff.var 5], Eff.empty⟩, ⟨[], Eff.empty⟩] ∧
      (run [app, both, ⟨[], [.callFn 1 [.lam [nat .write], .lam []]]⟩] 20 []
        [.callFn 1 [.lam [nat .write], .lam []]]).1 = [.write] := by
  refine ⟨?_, ?_⟩ <;> decide +kernel

/-- `fn k(a, b) { k(b, a) }`: both callbacks have the same effects. -/
def swap : Decl := ⟨[none, none], [.callFn 0 [.param 1, .param 0]]⟩

/-- `fn f(g) { g(); k(g, || write()) }`. -/
def mixed : Decl := ⟨[none], [.callParam 0, .callFn 0 [.param 0, .lam [nat .write]]]⟩

/-- **C71 is violated** by a callback merged with a closure: the function which gives a writing closure
to `f` is accepted with no effects, and its run writes. -/
theorem C71_merged_callback_violated :
    infer [[swap], [mixed], [⟨[], [.callFn 1 [.lam [nat .write]]]⟩]] =
        some [⟨[Eff.var 0, Eff.var 0], Eff.empty⟩, ⟨[⟨Prims.one .write, [3]⟩], Eff.var 3⟩, ⟨[], Eff.empty⟩] ∧
      (run [swap, mixed, ⟨[], [.callFn 1 [.lam [nat .write]]]⟩] 20 [] [.callFn 1 [.lam [nat .write]]]).1.head? = some .write := by
  refine ⟨?_, ?_⟩ <;> decide +kernel

/-- A program of the direct fragment: `fn app(f) { f() }`, `fn twice(f, g) { read(); app(f); app(g) }`,
`fn save() { write() }`, `fn main() { twice(save, || fallible()) }`. -/
def program : List (List Decl) :=
  [[app], [⟨[none, none], [nat .read, .callFn 0 [.param 0], .callFn 0 [.param 1]]⟩], [⟨[], [nat .write]⟩],
   [⟨[], [.callFn 1 [.fn 2, .lam [nat .fallible]]]⟩]]

theorem program_direct : Direct 0 program := by
  refine .callbacks (by simp [app]) rfl rfl (.callbacks (by simp) rfl rfl (.plain (by simp) (by simp; rfl) (.plain (by simp) (by simp; rfl) .nil)))

/-- The hypotheses of C71 hold for it, with types which use variables and a run which does all. -/
example : Direct 0 program ∧ infer program = some [⟨[Eff.var 1], Eff.var 1⟩,
      ⟨[Eff.var 3, Eff.var 4], ⟨Prims.one .read, [3, 4]⟩⟩, ⟨[], Eff.ground (Prims.one .write)⟩,
      ⟨[], Eff.ground ⟨true, true, true⟩⟩] ∧
    (run program.flatten 20 [] [.callFn 1 [.fn 2, .lam [nat .fallible]]]).1 = [.read, .write, .fallible] :=
  ⟨program_direct, by decide +kernel, by decide +kernel⟩

/-! ## C72: the effects of first-order programs are exact -/

/-- **C72.** A program whose functions have no callbacks is accepted, whatever the recursion among its
functions, and the type of each function has exactly the primitive effects of the natives it may
reach through calls. -/
theorem C72_first_order_effects_exact {groups : List (List Decl)} (h : FirstOrder 0 groups) :
    ∃ S, infer groups = some S ∧ S.length = groups.flatten.length ∧ ∀ (f : Nat) (s : Scheme), S[f]? = some s →
      s.params = [] ∧ s.eff.vars = [] ∧ ∀ p, s.eff.prims.has p = true ↔ MayDo groups.flatten f p := by
  obtain ⟨S, h1, h2⟩ := inferFrom_firstOrder (P := groups.flatten) groups (Q := []) (by simp) described_nil (fun f s hs => by simp at hs) h
  refine ⟨S, h1, ?_, h2⟩
  have := inferFrom_described groups described_nil h.direct h1
  rw [List.nil_append] at this
  exact this.length

theorem run_all {P : List Decl} (hP : ∀ d ∈ P, firstOrder P.length d.body) {p : Prim} : ∀ (n : Nat) (env : List Clo) (ss : List Stmt),
    firstOrder P.length ss → (run P n env ss).2 = true → ∀ s ∈ ss, StmtMay P s p → p ∈ (run P n env ss).1 := by
  intro n
  induction n with
  | zero => intro env ss _ h; simp [run] at h
  | succ n ih =>
    intro env ss hfo h s hs hm
    cases ss with
    | nil => cases hs
    | cons x ss =>
      have tail : (run P n env ss).2 = true → s ∈ ss → p ∈ (run P n env ss).1 := fun h hs =>
        ih env ss (fun y hy => hfo y (List.mem_cons_of_mem _ hy)) h s hs hm
      rcases hfo x List.mem_cons_self with ⟨e, rfl⟩ | ⟨f, hf, rfl⟩
      · simp only [run, if_true] at h ⊢
        rcases List.mem_cons.mp hs with rfl | hs
        · refine List.mem_append.mpr (.inl ?_)
          rcases hm with ⟨e', he', he⟩ | ⟨g, hg, _⟩
          · cases he'
            simp only [Prims.list, List.mem_filter]
            exact ⟨by cases p <;> simp [Ferlium.Effects.allPrims], he⟩
          · cases hg
        · exact List.mem_append.mpr (.inr (tail h hs))
      · have hd : P[f]? = some P[f] := List.getElem?_eq_getElem hf
        have hrun : run P (n + 1) env (.callFn f [] :: ss) =
            if (run P n [] P[f].body).2 then
              ((run P n [] P[f].body).1 ++ (run P n env ss).1, (run P n env ss).2)
            else ((run P n [] P[f].body).1, false) := by
          simp only [run, List.mapM_nil, hd]
          rfl
        rw [hrun] at h ⊢
        by_cases hn : (run P n [] P[f].body).2 = true
        · rw [if_pos hn] at h ⊢
          rcases List.mem_cons.mp hs with rfl | hs
          · refine List.mem_append.mpr (.inl ?_)
            rcases hm with ⟨e', he', _⟩ | ⟨g, hg, hgm⟩
            · cases he'
            · cases hg
              obtain ⟨y, hy, hym⟩ := (mayDo_iff hd p).mp hgm
              exact ih [] _ (hP _ (List.getElem_mem hf)) hn y hy hym
          · exact List.mem_append.mpr (.inr (tail h hs))
        · rw [if_neg hn] at h
          cases h

theorem firstOrder_bodies {n : Nat} {groups : List (List Decl)} (h : FirstOrder n groups) :
    ∀ d ∈ groups.flatten, firstOrder (n + groups.flatten.length) d.body := by
  induction h with
  | nil => intro d hd; simp at hd
  | cons hds _ ih =>
    rename_i n ds rest _
    intro d hd
    rw [List.flatten_cons] at hd ⊢
    have mono : ∀ {a b : Nat} {ss : List Stmt}, firstOrder a ss → a ≤ b → firstOrder b ss := by
      intro a b ss h hab s hs
      rcases h s hs with h | ⟨f, hf, h⟩
      · exact .inl h
      · exact .inr ⟨f, by omega, h⟩
    rcases List.mem_append.mp hd with hd | hd
    · exact mono (hds d hd).2 (by simp)
    · have := ih d hd
      rw [List.length_append, ← Nat.add_assoc]; exact this

/-- **C72.** A call of such a function that returns performs exactly the effects of its type. -/
theorem C72_returning_run_does_all {groups : List (List Decl)} (h : FirstOrder 0 groups) {S : List Scheme}
    (hi : infer groups = some S) {f : Nat} {d : Decl} (hd : groups.flatten[f]? = some d) {n : Nat}
    (hr : (run groups.flatten n [] d.body).2 = true) :
    ∃ s, S[f]? = some s ∧ ∀ p, p ∈ (run groups.flatten n [] d.body).1 ↔ s.eff.prims.has p = true := by
  obtain ⟨S', h1, hlen, hex⟩ := C72_first_order_effects_exact h
  rw [hi] at h1
  cases h1
  obtain ⟨s, hs, k⟩ := C71_run_within_inferred_effects_partial h.direct hi hd
  obtain ⟨hp, hv, he⟩ := hex f s hs
  have bodies := firstOrder_bodies h
  simp only [Nat.zero_add] at bodies
  refine ⟨s, hs, fun p => ⟨fun hpn => ?_, fun hpn => ?_⟩⟩
  · rcases k (fun _ _ => False) [] (by rw [hp]; exact .nil) n p hpn with h | ⟨_, _, h⟩
    · exact h
    · exact h.elim
  · obtain ⟨y, hy, hym⟩ := (mayDo_iff hd p).mp ((he p).mp hpn)
    exact run_all bodies n [] d.body (bodies d (List.mem_of_getElem? hd)) hr y hy hym

/-- Two functions which call each other: `fn a() { read(); b() }`, `fn b() { write(); a() }`, and
`fn c() { fallible() }` after them. -/
def mutual2 : List (List Decl) :=
  [[⟨[], [nat .read, .callFn 1 []]⟩, ⟨[], [nat .write, .callFn 0 []]⟩], [⟨[], [nat .fallible]⟩]]

theorem mutual2_firstOrder : FirstOrder 0 mutual2 := by
  refine .cons ?_ (.cons ?_ .nil) <;> simp [firstOrder, nat]

/-- The types of this program: both functions read and write, and neither may fail. -/
example : FirstOrder 0 mutual2 ∧ infer mutual2 = some [⟨[], Eff.ground ⟨true, true, false⟩⟩,
      ⟨[], Eff.ground ⟨true, true, false⟩⟩, ⟨[], Eff.ground ⟨false, false, true⟩⟩] ∧
    MayDo mutual2.flatten 0 .write ∧ (run mutual2.flatten 5 [] [nat .fallible]).2 = true := by
  refine ⟨mutual2_firstOrder, by decide +kernel, ?_, by decide +kernel⟩
  exact .call (g := 1) (d := ⟨[], [nat .read, .callFn 1 []]⟩) rfl (by simp)
    (.native (d := ⟨[], [nat .write, .callFn 0 []]⟩) (e := Prims.one .write) rfl (by simp [nat]) rfl)

/-! ## C73: annotated callbacks -/

/-- **C73** (partial: arguments with known effects). In an accepted program, a call which gives, for a
parameter annotated with the effects `B`, an earlier function or a closure of natives and calls of
earlier functions without arguments, gives one whose effects are in `B`: the program is rejected
otherwise. -/
theorem C73_annotated_parameter_bound_partial {pre : List (List Decl)} {ds : List Decl} {post : List (List Decl)}
    {S : List Scheme} (h : infer (pre ++ ds :: post) = some S) {d : Decl} (hd : d ∈ ds) {f : Nat} {args : List Arg}
    (hm : Stmt.callFn f args ∈ d.body) {df : Decl} (hf : pre.flatten[f]? = some df) {j : Nat} {B : Prims}
    (hB : df.params[j]? = some (some B)) {a : Arg} (ha : args[j]? = some a)
    (hk : knownArg pre.flatten.length a = true) {p : Prim} (hp : ArgDoes S a p) : B.has p = true :=
  annotated_bound h hd hm hf hB ha hk hp

/-- `fn quiet(f: () -> () ! ()) { f() }`. -/
def quiet : Decl := ⟨[some Prims.none], [.callParam 0]⟩

/-- `fn takeRead(f: () -> () ! read) { f() }`. -/
def takeRead : Decl := ⟨[some (Prims.one .read)], [.callParam 0]⟩

/-- `fn wrap(f) { takeRead(f) }`. -/
def wrap : Decl := ⟨[none], [.callFn 0 [.param 0]]⟩

/-- `fn save() { write() }`. -/
def save : Decl := ⟨[], [nat .write]⟩

/-- **C73 is violated** through a function which forwards its callback: `wrap(save)` is accepted,
though `takeRead(save)` is not, and it runs the writing callback where only reads are allowed; the
caller is inferred to read only. -/
theorem C73_forwarded_callback_violated :
    infer [[takeRead], [wrap], [save], [⟨[], [.callFn 1 [.fn 2]]⟩]] =
        some [⟨[Eff.ground (Prims.one .read)], Eff.ground (Prims.one .read)⟩,
          ⟨[⟨Prims.one .read, [0]⟩], Eff.ground (Prims.one .read)⟩, ⟨[], Eff.ground (Prims.one .write)⟩,
          ⟨[], Eff.ground (Prims.one .read)⟩] ∧
      (run [takeRead, wrap, save, ⟨[], [.callFn 1 [.fn 2]]⟩] 20 [] [.callFn 1 [.fn 2]]).1 = [.write] ∧
      infer [[takeRead], [save], [⟨[], [.callFn 0 [.fn 1]]⟩]] = none := by
  refine ⟨?_, ?_, ?_⟩ <;> decide +kernel

/-- **C73 is violated** for callbacks annotated as pure as well. -/
theorem C73_pure_callback_violated :
    infer [[quiet], [wrap], [save], [⟨[], [.callFn 1 [.fn 2]]⟩]] =
        some [⟨[Eff.empty], Eff.empty⟩, ⟨[Eff.var 0], Eff.empty⟩, ⟨[], Eff.ground (Prims.one .write)⟩, ⟨[], Eff.empty⟩] ∧
      (run [quiet, wrap, save, ⟨[], [.callFn 1 [.fn 2]]⟩] 20 [] [.callFn 1 [.fn 2]]).1 = [.write] := by
  refine ⟨?_, ?_⟩ <;> decide +kernel

/-- `fn helper(f) { takeRead(|| { write(); f() }) }`. -/
def helper : Decl := ⟨[none], [.callFn 0 [.lam [nat .write, .callParam 0]]]⟩

/-- **C73 is violated** for a closure which also calls a callback: its own write is not compared with the annotation, the
annotation is added to the callback instead. -/
theorem C73_mixed_closure_violated :
    infer [[takeRead], [helper], [⟨[], [.callFn 1 [.lam []]]⟩]] =
        some [⟨[Eff.ground (Prims.one .read)], Eff.ground (Prims.one .read)⟩,
          ⟨[⟨Prims.one .read, [2]⟩], Eff.ground (Prims.one .read)⟩, ⟨[], Eff.ground (Prims.one .read)⟩] ∧
      (run [takeRead, helper, ⟨[], [.callFn 1 [.lam []]]⟩] 20 [] [.callFn 1 [.lam []]]).1 = [.write] ∧
      infer [[takeRead], [⟨[], [.callFn 0 [.lam [nat .write]]]⟩]] = none := by
  refine ⟨?_, ?_, ?_⟩ <;> decide +kernel

/-- An accepted call with an annotated parameter: `takeRead(|| read())`. -/
example : ∃ S, infer ([[takeRead]] ++ [⟨[], [.callFn 0 [.lam [nat .read]]]⟩] :: []) = some S ∧
    knownArg ([[takeRead]] : List (List Decl)).flatten.length (.lam [nat .read]) = true ∧
    ArgDoes S (.lam [nat .read]) .read :=
  ⟨[⟨[Eff.ground (Prims.one .read)], Eff.ground (Prims.one .read)⟩, ⟨[], Eff.ground (Prims.one .read)⟩],
    by decide +kernel, by decide, .inr ⟨_, rfl, .inl ⟨Prims.one .read, by simp [nat], by decide⟩⟩⟩

end Ferlium.EffInfer
